import Verif.Tac
import Mathlib.Analysis.SpecialFunctions.Exponential
import Mathlib.Analysis.SpecialFunctions.Exp

/-!
# Lemmas: non-negative quadratic forms
-/

noncomputable section

namespace Verif.FLS

open Real Finset

variable {ι κ : Type*} [Fintype ι] [Fintype κ]

/-- The quadratic form of the array is never negative. -/
def PSD (M : ι → ι → ℝ) : Prop := ∀ c : ι → ℝ, 0 ≤ ∑ i, ∑ j, c i * c j * M i j

theorem PSD.add {M N : ι → ι → ℝ} (hM : PSD M) (hN : PSD N) : PSD fun i j => M i j + N i j := fun c => by
  simp only [mul_add, sum_add_distrib]
  exact add_nonneg (hM c) (hN c)

theorem PSD.smul {M : ι → ι → ℝ} (hM : PSD M) {a : ℝ} (ha : 0 ≤ a) : PSD fun i j => a * M i j := fun c => by
  have e : ∀ i j, c i * c j * (a * M i j) = a * (c i * c j * M i j) := fun i j => by ring
  simp only [e, ← mul_sum]
  exact mul_nonneg ha (hM c)

theorem PSD.scale {M : ι → ι → ℝ} (hM : PSD M) (f : ι → ℝ) : PSD fun i j => f i * f j * M i j := fun c => by
  have e : ∀ i j, c i * c j * (f i * f j * M i j) = (c i * f i) * (c j * f j) * M i j := fun i j => by ring
  simp only [e]
  exact hM fun i => c i * f i

theorem PSD.one : PSD fun _ _ : ι => (1 : ℝ) := fun c => by
  have : ∑ i, ∑ j, c i * c j * 1 = (∑ i, c i) * ∑ i, c i := by rw [sum_mul_sum]; simp
  rw [this]; exact mul_self_nonneg _

/-- Equal entries for equal images. -/
theorem PSD.comap [DecidableEq κ] {M : κ → κ → ℝ} (hM : PSD M) (k : ι → κ) : PSD fun i j => M (k i) (k j) := fun c => by
  have := hM fun a => ∑ i, if k i = a then c i else 0
  refine this.trans_eq ?_
  have e1 : ∀ a b, (∑ i, if k i = a then c i else 0) * (∑ i, if k i = b then c i else 0) * M a b = ∑ i, ∑ j, if k i = a then (if k j = b then c i * c j * M a b else 0) else 0 := fun a b => by
    rw [sum_mul_sum, sum_mul]
    refine sum_congr rfl fun i _ => ?_
    rw [sum_mul]
    refine sum_congr rfl fun j _ => ?_
    split_ifs <;> simp
  simp only [e1]
  rw [sum_congr rfl fun a _ => sum_comm, sum_comm]
  refine sum_congr rfl fun i _ => ?_
  rw [sum_congr rfl fun a _ => sum_comm, sum_comm]
  refine sum_congr rfl fun j _ => ?_
  simp

/-- The array of equal images. -/
theorem PSD.same [DecidableEq κ] (k : ι → κ) : PSD fun i j => if k i = k j then (1 : ℝ) else 0 :=
  PSD.comap (M := fun a b : κ => if a = b then (1 : ℝ) else 0) (fun c => by
    simp only [mul_ite, mul_one, mul_zero, sum_ite_eq, mem_univ, if_true]
    exact sum_nonneg fun i _ => mul_self_nonneg _) k

/-- A dominant diagonal. -/
theorem PSD.dominant [DecidableEq κ] {N : κ → κ → ℝ} (hs : ∀ k l, N k l = N l k) (hn : ∀ k l, k ≠ l → 0 ≤ N k l) (hd : ∀ k, ∑ l ∈ univ.erase k, N k l ≤ N k k) : PSD N := fun c => by
  have h1 : ∀ k, ∑ l, c k * c l * N k l = c k ^ 2 * N k k + ∑ l ∈ univ.erase k, c k * c l * N k l := fun k => by
    rw [← add_sum_erase _ _ (mem_univ k)]; ring
  have h2 : ∀ k, ∑ l ∈ univ.erase k, c k * c l * N k l ≥ ∑ l ∈ univ.erase k, -((c k ^ 2 + c l ^ 2) / 2 * N k l) := fun k => by
    refine sum_le_sum fun l hl => ?_
    have := hn k l (ne_of_mem_erase hl).symm
    nlinarith [mul_nonneg (sq_nonneg (c k + c l)) this]
  have h3 : ∑ k, ∑ l ∈ univ.erase k, (c k ^ 2 + c l ^ 2) / 2 * N k l = ∑ k, c k ^ 2 * ∑ l ∈ univ.erase k, N k l := by
    have a1 : ∀ k, ∑ l ∈ univ.erase k, (c k ^ 2 + c l ^ 2) / 2 * N k l = ∑ l, if l ≠ k then (c k ^ 2 + c l ^ 2) / 2 * N k l else 0 := fun k => by
      rw [← sum_filter]; congr 1; ext l; simp
    have a2 : ∀ k, c k ^ 2 * ∑ l ∈ univ.erase k, N k l = ∑ l, if l ≠ k then c k ^ 2 * N k l else 0 := fun k => by
      rw [mul_sum, ← sum_filter]; congr 1; ext l; simp
    simp only [a1, a2]
    have a3 : ∑ k, ∑ l, (if l ≠ k then c k ^ 2 * N k l else 0) = ∑ k, ∑ l, if l ≠ k then c l ^ 2 * N k l else 0 := by
      rw [sum_comm]
      refine sum_congr rfl fun k _ => sum_congr rfl fun l _ => ?_
      rw [hs l k]
      by_cases h : l = k
      · simp [h]
      · rw [if_pos (Ne.symm h), if_pos h]
    have a4 : ∑ k, ∑ l, (if l ≠ k then (c k ^ 2 + c l ^ 2) / 2 * N k l else 0)
        = (∑ k, ∑ l, (if l ≠ k then c k ^ 2 * N k l else 0) + ∑ k, ∑ l, if l ≠ k then c l ^ 2 * N k l else 0) / 2 := by
      rw [← sum_add_distrib, sum_div]
      refine sum_congr rfl fun k _ => ?_
      rw [← sum_add_distrib, sum_div]
      refine sum_congr rfl fun l _ => ?_
      split_ifs <;> ring
    rw [a4, ← a3]; ring
  simp only [h1]
  have h4 : ∑ k, (c k ^ 2 * N k k + ∑ l ∈ univ.erase k, c k * c l * N k l) ≥ ∑ k, (c k ^ 2 * N k k - c k ^ 2 * ∑ l ∈ univ.erase k, N k l) := by
    rw [sum_add_distrib, sum_sub_distrib, ← h3]
    have := sum_le_sum fun k (_ : k ∈ univ) => h2 k
    simp only [sum_neg_distrib] at this
    linarith
  refine le_trans (sum_nonneg fun k _ => ?_) h4
  rw [← mul_sub]
  exact mul_nonneg (sq_nonneg _) (sub_nonneg.mpr (hd k))

theorem exp_hasSum (x : ℝ) : HasSum (fun n : ℕ => x ^ n / n.factorial) (exp x) := by
  rw [exp_eq_exp_ℝ]; exact NormedSpace.expSeries_div_hasSum_exp x

/-- A series of products. -/
theorem PSD.series {M : ι → ι → ℝ} (hM : PSD M) (x : ι → ℝ) {a : ℕ → ℝ} (ha : ∀ n, 0 ≤ a n) {S : ι → ι → ℝ} (hS : ∀ i j, HasSum (fun n => a n * (x i * x j) ^ n) (S i j)) :
    PSD fun i j => M i j * S i j := fun c => by
  have h1 : HasSum (fun n => ∑ i, ∑ j, c i * c j * M i j * (a n * (x i * x j) ^ n)) (∑ i, ∑ j, c i * c j * M i j * S i j) :=
    hasSum_sum fun i _ => hasSum_sum fun j _ => (hS i j).mul_left _
  have h2 : ∀ n, 0 ≤ ∑ i, ∑ j, c i * c j * M i j * (a n * (x i * x j) ^ n) := fun n => by
    have e : ∀ i j, c i * c j * M i j * (a n * (x i * x j) ^ n) = a n * ((c i * x i ^ n) * (c j * x j ^ n) * M i j) := fun i j => by rw [mul_pow]; ring
    simp only [e, ← mul_sum]
    exact mul_nonneg (ha n) (hM fun i => c i * x i ^ n)
  have := h1.nonneg h2
  simpa only [mul_assoc] using this

theorem PSD.exp {M : ι → ι → ℝ} (hM : PSD M) (x : ι → ℝ) {k : ℝ} (hk : 0 ≤ k) : PSD fun i j => M i j * exp (k * (x i * x j)) :=
  hM.series x (a := fun n => k ^ n / n.factorial) (fun n => by positivity) fun i j => by
    have := exp_hasSum (k * (x i * x j))
    convert this using 2 with n
    rw [mul_pow k]; ring

/-- Points on a line and their mirror images. -/
theorem PSD.mirror {M : ι → ι → ℝ} (hM : PSD M) (x : ι → ℝ) (s : ℝ) : PSD fun i j => M i j * (Real.exp (-((x i - x j) * s) ^ 2) + Real.exp (-((x i + x j) * s) ^ 2)) := by
  have h := (hM.series x (a := fun n => (1 + (-1) ^ n) * ((2 * s ^ 2) ^ n / n.factorial)) (fun n => by
      have : 0 ≤ (1 : ℝ) + (-1) ^ n := by rcases neg_one_pow_eq_or ℝ n with h | h <;> rw [h] <;> norm_num
      positivity) (S := fun i j => Real.exp (2 * s ^ 2 * (x i * x j)) + Real.exp (-(2 * s ^ 2 * (x i * x j)))) fun i j => by
    have := (exp_hasSum (2 * s ^ 2 * (x i * x j))).add (exp_hasSum (-(2 * s ^ 2 * (x i * x j))))
    convert this using 2 with n
    rw [neg_pow (2 * s ^ 2 * (x i * x j)), mul_pow (2 * s ^ 2)]; ring).scale fun i => Real.exp (-(x i * s) ^ 2)
  convert h using 3 with i j
  have e1 : Real.exp (-((x i - x j) * s) ^ 2) = Real.exp (-(x i * s) ^ 2) * Real.exp (-(x j * s) ^ 2) * Real.exp (2 * s ^ 2 * (x i * x j)) := by
    rw [← Real.exp_add, ← Real.exp_add]; congr 1; ring
  have e2 : Real.exp (-((x i + x j) * s) ^ 2) = Real.exp (-(x i * s) ^ 2) * Real.exp (-(x j * s) ^ 2) * Real.exp (-(2 * s ^ 2 * (x i * x j))) := by
    rw [← Real.exp_add, ← Real.exp_add]; congr 1; ring
  rw [e1, e2]; ring

/-- Points on a line. -/
theorem PSD.gauss {M : ι → ι → ℝ} (hM : PSD M) (x : ι → ℝ) (s : ℝ) : PSD fun i j => M i j * Real.exp (-(x i - x j) ^ 2 * s ^ 2) := by
  have h := (hM.exp x (k := 2 * s ^ 2) (by positivity)).scale fun i => Real.exp (-(x i * s) ^ 2)
  convert h using 3 with i j
  rw [mul_left_comm, ← Real.exp_add, ← Real.exp_add]
  congr 2; ring

end Verif.FLS
