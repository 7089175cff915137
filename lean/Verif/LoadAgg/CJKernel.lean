import Verif.LoadAgg.CJLemmas
import Verif.LoadAgg.SpecLemmas
import Verif.Tac

/-!
# What the Claesson-Javed cells hold after some shifts of a unit load (lemmas for C129)

`kern w j k` is the content of cell `k`, `j` time steps after a load of one was in the first cell.
As each shift moves the share `1 / w k` out of cell `k`, the contents times the widths are the
probabilities of a chain that climbs one cell at a time: their sum is one, and the mean of the
left edges of the cells is exactly `j`.  The number of cells does not matter.
-/

namespace Verif.LoadAgg.CJ

open Finset

/-- Content of cell `k`, `j` time steps after a unit load. -/
def kern {K : Type*} [Field K] (w : ℕ → ℕ) : ℕ → ℕ → K
  | 0, 0 => 1
  | 0, _ + 1 => 0
  | _ + 1, 0 => 0
  | j + 1, k + 1 => (1 - 1 / (w (k + 1) : K)) * kern w j (k + 1) + kern w j k / (w (k + 1) : K)

/-- Left edge of cell `k`, in time steps. -/
def edge (w : ℕ → ℕ) (k : ℕ) : ℕ := ∑ m ∈ range k, w m

theorem edge_succ (w : ℕ → ℕ) (k : ℕ) : edge w (k + 1) = edge w k + w k := sum_range_succ _ _

theorem edge_mono (w : ℕ → ℕ) {a b : ℕ} (h : a ≤ b) : edge w a ≤ edge w b :=
  Finset.sum_le_sum_of_subset (by simpa using h)

section field

variable {K : Type*} [Field K] {w : ℕ → ℕ}

theorem kern_support (j k : ℕ) (h : j < k) : (kern w j k : K) = 0 := by
  induction j generalizing k with
  | zero => cases k with
    | zero => omega
    | succ k => rfl
  | succ j ih => cases k with
    | zero => omega
    | succ k => rw [kern, ih _ (by omega), ih _ (by omega)]; simp

/-- Weighted sum over the cells. -/
theorem moment_succ [CharZero K] (hw0 : w 0 = 1) (hw : ∀ k, 1 ≤ w k) (f : ℕ → K) (j : ℕ) :
    ∑ k ∈ range (j + 2), w k * kern w (j + 1) k * f k
      = ∑ k ∈ range (j + 1), w k * kern w j k * f k
        + ∑ k ∈ range (j + 1), kern w j k * (f (k + 1) - f k) := by
  have hne : ∀ k, (w k : K) ≠ 0 := fun k => by
    have := hw k; exact_mod_cast (by omega : w k ≠ 0)
  rw [sum_range_succ' _ (j + 1)]
  have h1 : ∀ k, (w (k + 1) : K) * kern w (j + 1) (k + 1) * f (k + 1)
      = (w (k + 1) - 1) * kern w j (k + 1) * f (k + 1) + kern w j k * f (k + 1) := by
    intro k
    rw [kern]
    have := hne (k + 1)
    field_simp
  simp_rw [h1]
  have h2 : ∑ k ∈ range (j + 1), ((w (k + 1) : K) - 1) * kern w j (k + 1) * f (k + 1)
      = ∑ k ∈ range (j + 1), ((w k : K) - 1) * kern w j k * f k := by
    have a := sum_range_succ' (fun k => ((w k : K) - 1) * kern w j k * f k) (j + 1)
    have b := sum_range_succ (fun k => ((w k : K) - 1) * kern w j k * f k) (j + 1)
    rw [kern_support j (j + 1) (by omega)] at b
    rw [hw0] at a
    simp only [Nat.cast_one, sub_self, zero_mul, add_zero, mul_zero] at a b
    rw [← a, b]
  rw [sum_add_distrib, h2]
  simp only [kern, mul_zero, zero_mul, add_zero]
  rw [← sum_add_distrib, ← sum_add_distrib]
  refine sum_congr rfl fun k _ => by ring

theorem mass [CharZero K] (hw0 : w 0 = 1) (hw : ∀ k, 1 ≤ w k) (j : ℕ) :
    ∑ k ∈ range (j + 1), (w k : K) * kern w j k = 1 := by
  induction j with
  | zero => simp [hw0, kern]
  | succ j ih =>
    have := moment_succ (K := K) hw0 hw (fun _ => 1) j
    simp only [mul_one, sub_self, mul_zero, sum_const_zero, add_zero] at this
    rw [this, ih]

theorem mean_edge [CharZero K] (hw0 : w 0 = 1) (hw : ∀ k, 1 ≤ w k) (j : ℕ) :
    ∑ k ∈ range (j + 1), (w k : K) * kern w j k * edge w k = j := by
  induction j with
  | zero => simp [edge]
  | succ j ih =>
    have := moment_succ (K := K) hw0 hw (fun k => (edge w k : K)) j
    rw [this, ih, Nat.cast_add_one, ← mass (K := K) hw0 hw j]
    congr 1
    refine sum_congr rfl fun k _ => ?_
    rw [edge_succ]; push_cast; ring

end field

section order

variable {K : Type*} [Field K] [LinearOrder K] [IsStrictOrderedRing K] {w : ℕ → ℕ}

theorem kern_nonneg (hw : ∀ k, 1 ≤ w k) (j k : ℕ) : (0 : K) ≤ kern w j k := by
  induction j generalizing k with
  | zero => cases k <;> simp [kern]
  | succ j ih => cases k with
    | zero => simp [kern]
    | succ k =>
      rw [kern]
      have h1 : (1 : K) ≤ w (k + 1) := by exact_mod_cast hw (k + 1)
      have h2 : 1 / (w (k + 1) : K) ≤ 1 := by
        rw [div_le_one (by linarith)]; exact h1
      have := ih k
      have := ih (k + 1)
      have : (0 : K) ≤ 1 - 1 / (w (k + 1) : K) := by linarith
      positivity

/-- The contents of one cell over all time steps add up to at most one. -/
theorem kern_total (hw : ∀ k, 1 ≤ w k) (m k : ℕ) : ∑ j ∈ range m, (kern w j k : K) ≤ 1 := by
  induction m generalizing k with
  | zero => simp
  | succ m ih =>
    rw [sum_range_succ']
    cases k with
    | zero => simp [kern]
    | succ k =>
      have h1 : (1 : K) ≤ w (k + 1) := by exact_mod_cast hw (k + 1)
      have h2 : 1 / (w (k + 1) : K) ≤ 1 := by
        rw [div_le_one (by linarith)]; exact h1
      have h3 : (0 : K) ≤ 1 / (w (k + 1) : K) := by positivity
      simp only [kern, add_zero, div_eq_mul_one_div (kern w _ k : K)]
      rw [sum_add_distrib, ← mul_sum, ← sum_mul]
      nlinarith [ih k, ih (k + 1)]

/-- Mean of the squares of the left edges, for widths that grow with the age `c` times slower. -/
theorem square_edge (hw0 : w 0 = 1) (hw : ∀ k, 1 ≤ w k) (c : ℕ) (hc : 1 ≤ c)
    (hg : ∀ k, c * w k ≤ c + edge w k) (j : ℕ) :
    2 * c * ∑ k ∈ range (j + 1), (w k : K) * kern w j k * (edge w k : K) ^ 2
      ≤ (2 * c + 1) * (j : K) ^ 2 := by
  have hc' : (1 : K) ≤ c := by exact_mod_cast hc
  suffices h : 2 * c * ∑ k ∈ range (j + 1), (w k : K) * kern w j k * (edge w k : K) ^ 2
      ≤ (2 * c + 1) * (j : K) ^ 2 - j by
    have : (0 : K) ≤ j := Nat.cast_nonneg j
    linarith
  induction j with
  | zero => simp [edge]
  | succ j ih =>
    rw [moment_succ (K := K) hw0 hw (fun k => (edge w k : K) ^ 2) j, mul_add]
    have h1 : 2 * (c : K) * ∑ k ∈ range (j + 1), kern w j k * ((edge w (k + 1) : K) ^ 2 - edge w k ^ 2)
        ≤ (4 * c + 2) * j + 2 * c := by
      calc 2 * (c : K) * ∑ k ∈ range (j + 1), kern w j k * ((edge w (k + 1) : K) ^ 2 - edge w k ^ 2)
          ≤ ∑ k ∈ range (j + 1), ((4 * c + 2) * ((w k : K) * kern w j k * edge w k)
              + 2 * c * ((w k : K) * kern w j k)) := by
            rw [mul_sum]
            refine sum_le_sum fun k _ => ?_
            have g : (c : K) * w k ≤ c + edge w k := by exact_mod_cast hg k
            have p : (0 : K) ≤ w k * kern w j k := mul_nonneg (Nat.cast_nonneg _) (kern_nonneg hw j k)
            rw [edge_succ]; push_cast
            have := mul_le_mul_of_nonneg_left g p
            linarith
        _ = _ := by
            rw [sum_add_distrib, ← mul_sum, ← mul_sum, mean_edge hw0 hw, mass hw0 hw]; ring
    push_cast
    linarith

end order

/-- The cells hold the loads of the history, each spread as a unit load of its age. -/
theorem run_kern {K : Type*} [Field K] {S : Type*} {n : ℕ} (w : ℕ → ℕ) (hw0 : w 0 = 1)
    (ops : List (Op K S)) (hp : Proper ops) (s : S) (k : Fin (n + 1)) :
    run (fun k : Fin (n + 1) => (w k : K)) ops s k
      = ∑ j ∈ range (hist ops).length, ((hist ops).map fun l => l s).getD j 0 * kern w j k := by
  induction ops using List.reverseRecOn generalizing k with
  | nil => simp [run, initCells, hist]
  | append_singleton ops op ih =>
    obtain ⟨hp', hop⟩ := proper_append hp
    have ih := ih hp'
    rw [run_append, hist_append]
    cases op with
    | next =>
      simp only [step, histStep, List.length_cons, List.map_cons]
      rw [sum_range_succ']
      simp only [List.getD_cons_zero, zero_mul, add_zero, List.getD_cons_succ]
      cases k using Fin.cases with
      | zero => rw [next_zero]; simp [hw0, kern]
      | succ k =>
        rw [next_succ, ih, ih]
        simp only [Fin.val_succ, Fin.val_castSucc, kern]
        rw [mul_sum, sum_div, ← sum_add_distrib]
        refine sum_congr rfl fun j _ => by ring
    | set l =>
      cases hh : hist ops with
      | nil => rw [hist_eq_nil_iff] at hh; exact absurd (hop hh) (by simp)
      | cons a t =>
        simp only [step, histStep, List.tail_cons, List.length_cons, List.map_cons]
        rw [sum_range_succ']
        rw [hh] at ih
        simp only [List.length_cons, List.map_cons] at ih
        simp only [List.getD_cons_zero, List.getD_cons_succ, setCurrentLoad]
        cases k using Fin.cases with
        | zero => simp [kern]
        | succ k =>
          rw [Function.update_of_ne (Fin.succ_ne_zero k), ih, sum_range_succ']
          simp [kern]

end Verif.LoadAgg.CJ
