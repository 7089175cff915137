import Verif.LoadAgg.CJLemmas
import Verif.LoadAgg.SpecLemmas
import Verif.Tac




/-!
# Properties C01, C02, C03: Claesson-Javed load aggregation
-/

set_option linter.unusedSectionVars false

namespace Verif.LoadAgg.CJ

open Finset

section field
variable {K : Type*} [Field K] {S : Type*} {n : ℕ}

/-- **C01** (balance).  For every sequence of calls, the heat held in the cells of a
source (width times load) is the sum of the loads of the history minus the heat that
has flowed out of the last cell. -/
theorem cj_energy_balance (w : Fin (n + 1) → K) (hw0 : w 0 = 1) (hw : ∀ k, w k ≠ 0)
    (ops : List (Op K S)) (hp : Proper ops) (s : S) :
    ∑ k, w k * run w ops s k = ((hist ops).map (fun l => l s)).sum - outflow w s ops := by
  induction ops using List.reverseRecOn with
  | nil => simp [run, initCells, hist, outflow]
  | append_singleton ops op ih =>
    obtain ⟨hp', hop⟩ := proper_append hp
    have ih := ih hp'
    have hz := cell_zero w hw0 ops hp' s
    rw [run_append, hist_append]
    cases op with
    | next =>
      simp only [step]
      rw [energy_next w hw, outflow_append_next, ih]
      simp [histStep]
      ring
    | set l =>
      have hne : hist ops ≠ [] := by
        intro h
        rw [hist_eq_nil_iff] at h
        exact absurd (hop h) (by simp)
      obtain ⟨a, t, hat⟩ := List.exists_cons_of_ne_nil hne
      simp only [step]
      rw [energy_set, outflow_append_set, ih, hz, hw0, hat]
      simp [histStep]
      ring

/-- **C01** (no loss).  As long as no more time steps have been taken than there are
cells, the heat in the cells is exactly the sum of the loads. -/
theorem cj_energy_conserved (w : Fin (n + 1) → K) (hw0 : w 0 = 1) (hw : ∀ k, w k ≠ 0)
    (ops : List (Op K S)) (hp : Proper ops) (s : S) (hlen : (hist ops).length ≤ n + 1) :
    ∑ k, w k * run w ops s k = ((hist ops).map (fun l => l s)).sum := by
  rw [cj_energy_balance w hw0 hw ops hp s]
  suffices h : outflow w s ops = 0 by rw [h, sub_zero]
  induction ops using List.reverseRecOn with
  | nil => simp [outflow]
  | append_singleton ops op ih =>
    obtain ⟨hp', hop⟩ := proper_append hp
    rw [hist_append] at hlen
    cases op with
    | next =>
      simp only [histStep, List.length_cons] at hlen
      rw [outflow_append_next, ih hp' (by omega),
        cell_support w ops hp' s (Fin.last n) (by simp; omega), add_zero]
    | set l =>
      have hne : hist ops ≠ [] := by
        intro h
        rw [hist_eq_nil_iff] at h
        exact absurd (hop h) (by simp)
      have hpos : 0 < (hist ops).length := List.length_pos_iff.mpr hne
      simp only [histStep, List.length_cons, List.length_tail] at hlen
      rw [outflow_append_set, ih hp' (by omega)]

/-- Non-vacuity for C01: widths 1, 1, 2 and three loads. -/
example : Proper ([.next, .set (fun _ => 3), .next, .set (fun _ => 5), .next,
      .set (fun _ => 7)] : List (Op ℚ Unit)) ∧
    (![1, 1, 2] : Fin 3 → ℚ) 0 = 1 ∧ (∀ k, (![1, 1, 2] : Fin 3 → ℚ) k ≠ 0) ∧
    (hist ([.next, .set (fun _ => 3), .next, .set (fun _ => 5), .next,
      .set (fun _ => 7)] : List (Op ℚ Unit))).length ≤ 2 + 1 := by
  refine ⟨trivial, rfl, ?_, by decide⟩
  intro k; fin_cases k <;> simp

/-- A call with two alternative loads, used to state linearity: `none` is
`next_time_step`, `some (l₁, l₂)` sets a load computed from `l₁` and `l₂`. -/
def toOp (f : (S → K) × (S → K) → (S → K)) : Option ((S → K) × (S → K)) → Op K S
  | none => .next
  | some p => .set (f p)

/-- **C02** (linearity).  The response to the loads `a * l₁ + b * l₂` is the same
combination of the responses to the loads `l₁` and to the loads `l₂`, for every
sequence of calls and every thermal response. -/
theorem cj_linear [Fintype S] (w : Fin (n + 1) → K) (g : S → S → Fin (n + 1) → K) (a b : K)
    (ops : List (Option ((S → K) × (S → K)))) (i : S) :
    temporalSuperposition (increments g)
        (run w (ops.map (toOp fun p s => a * p.1 s + b * p.2 s))) i
      = a * temporalSuperposition (increments g) (run w (ops.map (toOp fun p => p.1))) i
        + b * temporalSuperposition (increments g) (run w (ops.map (toOp fun p => p.2))) i := by
  have key : ∀ s k, run w (ops.map (toOp fun p s => a * p.1 s + b * p.2 s)) s k
      = a * run w (ops.map (toOp fun p => p.1)) s k
        + b * run w (ops.map (toOp fun p => p.2)) s k := by
    induction ops using List.reverseRecOn with
    | nil => intro s k; simp [run, initCells]
    | append_singleton ops op ih =>
      intro s k
      simp only [List.map_append, List.map_cons, List.map_nil, run_append]
      cases op with
      | none =>
        simp only [toOp, step]
        cases k using Fin.cases with
        | zero => simp only [next_zero, ih]; ring
        | succ k => simp only [next_succ, ih]; ring
      | some p =>
        simp only [toOp, step, setCurrentLoad]
        by_cases hk : k = 0
        · subst hk; simp
        · simp only [Function.update_of_ne hk, ih]
  simp only [temporalSuperposition, key]
  rw [Finset.mul_sum, Finset.mul_sum, ← Finset.sum_add_distrib]
  refine Finset.sum_congr rfl fun j _ => ?_
  rw [Finset.mul_sum, Finset.mul_sum, ← Finset.sum_add_distrib]
  exact Finset.sum_congr rfl fun k _ => by ring

/-- **C03** (exactness).  If the cells reached by the history have width one, the
aggregated response is exactly the temporal superposition of the load history,
summed over the sources. -/
theorem cj_exact_unit_cells [Fintype S] (w : Fin (n + 1) → K) (G : S → S → ℕ → K)
    (ops : List (Op K S)) (hp : Proper ops) (hlen : (hist ops).length ≤ n + 1)
    (hunit : ∀ k : Fin (n + 1), k.val < (hist ops).length → w k = 1) (i : S) :
    temporalSuperposition (increments fun i j k => G i j k.val) (run w ops) i
      = ∑ j, superpose (G i j) ((hist ops).map fun l => l j) := by
  have key : ∀ j (k : Fin (n + 1)), run w ops j k
      = ((hist ops).map fun l => l j).getD k.val 0 := by
    intro j
    induction ops using List.reverseRecOn with
    | nil => intro k; simp [run, initCells, hist]
    | append_singleton ops op ih =>
      obtain ⟨hp', hop⟩ := proper_append hp
      rw [hist_append] at hunit hlen
      intro k
      rw [run_append, hist_append]
      cases op with
      | next =>
        simp only [histStep, List.length_cons] at hunit hlen
        have ih := ih hp' (by omega) (fun k hk => hunit k (by omega))
        simp only [step, histStep]
        cases k using Fin.cases with
        | zero => simp [next_zero, hunit 0 (by simp)]
        | succ k =>
          simp only [next_succ, List.map_cons, Fin.val_succ, List.getD_cons_succ]
          by_cases hk : k.succ.val < (hist ops).length + 1
          · rw [hunit k.succ hk, ih k.castSucc]; simp
          · simp only [Fin.val_succ] at hk
            rw [cell_support w ops hp' j k.succ (by simp; omega),
              cell_support w ops hp' j k.castSucc (by simp; omega)]
            rw [List.getD_eq_default _ _ (by simp; omega)]
            simp
      | set l =>
        have hne : hist ops ≠ [] := by
          intro h
          rw [hist_eq_nil_iff] at h
          exact absurd (hop h) (by simp)
        obtain ⟨a, t, hat⟩ := List.exists_cons_of_ne_nil hne
        have hpos : 0 < (hist ops).length := List.length_pos_iff.mpr hne
        simp only [histStep, List.length_cons, List.length_tail] at hunit hlen
        have ih := ih hp' (by omega) (fun k hk => hunit k (by omega))
        simp only [step, histStep, setCurrentLoad]
        cases k using Fin.cases with
        | zero => simp
        | succ k =>
          rw [Function.update_of_ne (Fin.succ_ne_zero k), ih k.succ, hat]
          simp
  simp only [temporalSuperposition]
  refine Finset.sum_congr rfl fun j _ => ?_
  rw [superpose_eq_increments]
  simp only [key, List.length_map]
  have hext : ∑ k ∈ range (hist ops).length,
        ((hist ops).map fun l => l j).getD k 0 * (if k = 0 then G i j 0 else G i j k - G i j (k - 1))
      = ∑ k ∈ range (n + 1),
        ((hist ops).map fun l => l j).getD k 0 * (if k = 0 then G i j 0 else G i j k - G i j (k - 1)) := by
    apply Finset.sum_subset
    · intro x; simp; omega
    · intro x _ hx
      rw [List.getD_eq_default _ _ (by simpa using hx)]
      simp
  rw [hext, ← Fin.sum_univ_eq_sum_range
    (fun k => ((hist ops).map fun l => l j).getD k 0
      * (if k = 0 then G i j 0 else G i j k - G i j (k - 1))) (n + 1)]
  refine Finset.sum_congr rfl fun k _ => ?_
  cases k using Fin.cases with
  | zero => simp [increments, mul_comm]
  | succ k => simp [increments, mul_comm]

/-- Non-vacuity for C03: the first two of three cells have width one, two loads. -/
example : Proper ([.next, .set (fun _ => 3), .next, .set (fun _ => 5)] : List (Op ℚ Unit)) ∧
    (hist ([.next, .set (fun _ => 3), .next, .set (fun _ => 5)] : List (Op ℚ Unit))).length ≤ 2 + 1
    ∧ ∀ k : Fin 3, k.val < (hist ([.next, .set (fun _ => 3), .next,
        .set (fun _ => 5)] : List (Op ℚ Unit))).length → (![1, 1, 2] : Fin 3 → ℚ) k = 1 := by
  refine ⟨trivial, by decide, ?_⟩
  intro k hk
  fin_cases k <;> simp_all [hist, histStep]

end field

section ordered
variable {K : Type*} [Field K] [LinearOrder K] [IsStrictOrderedRing K] {S : Type*} {n : ℕ}

/-- **C02** (no overshoot).  If all loads set so far for a source lie in an interval
that contains zero, so does every aggregated load of that source. -/
theorem cj_cells_bounded (w : Fin (n + 1) → K) (hw : ∀ k, 1 ≤ w k) (lo hi : K)
    (hlo : lo ≤ 0) (hhi : 0 ≤ hi) (ops : List (Op K S)) (s : S)
    (hops : ∀ l, Op.set l ∈ ops → lo ≤ l s ∧ l s ≤ hi) (k : Fin (n + 1)) :
    lo ≤ run w ops s k ∧ run w ops s k ≤ hi := by
  induction ops using List.reverseRecOn generalizing k with
  | nil => exact ⟨hlo, hhi⟩
  | append_singleton ops op ih =>
    have ih := ih (fun l hl => hops l (List.mem_append_left _ hl))
    rw [run_append]
    have hinv : ∀ k, 0 ≤ 1 / w k ∧ 1 / w k ≤ 1 := fun k => by
      have h1 : 0 < w k := lt_of_lt_of_le one_pos (hw k)
      exact ⟨by positivity, by rw [div_le_one h1]; exact hw k⟩
    cases op with
    | next =>
      simp only [step]
      cases k using Fin.cases with
      | zero =>
        obtain ⟨h0, h1⟩ := hinv 0
        obtain ⟨i1, i2⟩ := ih 0
        rw [next_zero]
        constructor <;> nlinarith
      | succ k =>
        obtain ⟨h0, h1⟩ := hinv k.succ
        obtain ⟨i1, i2⟩ := ih k.succ
        obtain ⟨j1, j2⟩ := ih k.castSucc
        rw [next_succ, div_eq_mul_one_div (run w ops s k.castSucc)]
        constructor <;> nlinarith
    | set l =>
      simp only [step, setCurrentLoad]
      by_cases hk : k = 0
      · subst hk
        simpa using hops l (by simp)
      · rw [Function.update_of_ne hk]; exact ih k

/-- Non-vacuity for the bound of C02. -/
example : (∀ k, (1 : ℚ) ≤ (![1, 1, 2] : Fin 3 → ℚ) k) ∧
    (∀ l, Op.set l ∈ ([.next, .set (fun _ => 3), .next, .set (fun _ => -5)] : List (Op ℚ Unit)) →
      (-5 : ℚ) ≤ l () ∧ l () ≤ 3) := by
  constructor
  · intro k; fin_cases k <;> simp
  · intro l hl
    simp at hl
    rcases hl with rfl | rfl <;> norm_num

end ordered

end Verif.LoadAgg.CJ
