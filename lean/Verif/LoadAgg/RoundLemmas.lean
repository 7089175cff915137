import Verif.LoadAgg.CJProps
import Verif.LoadAgg.RoundModel
import Verif.Num.FloatProps
import Verif.Util.TimeProps
import Mathlib.Algebra.Order.BigOperators.Ring.List

/-!
# Lemmas: rounding errors of the Claesson-Javed aggregation
-/

noncomputable section

namespace Verif.LoadAgg.Rnd

open Num CJ Finset

variable {u η : ℝ} {fl : ℝ → ℝ} {S : Type*} {n : ℕ}

/-! ### The shift matrix -/

theorem shiftMatrix_eq (h : Rounding u η fl) (w : Fin (n + 1) → ℝ) (i j : Fin (n + 1)) :
    shiftMatrix fl w i j = if i = j then fl (1 - fl (1 / w j)) else if i.val + 1 = j.val then fl (1 / w j) else 0 := by
  unfold shiftMatrix
  by_cases h1 : i = j
  · subst h1
    simp [h.idem]
  · by_cases h2 : i.val + 1 = j.val
    · simp [h1, h2, h.zero, h.idem]
    · simp [h1, h2, h.zero]

/-! ### One column of the product -/

theorem nonzeros_eq_sum (l : List (ℝ × ℝ)) : nonzeros l = (l.map fun p => if p.1 * p.2 = 0 then 0 else 1).sum := by
  induction l with
  | nil => rfl
  | cons p l ih => rw [nonzeros_cons, ih, List.map_cons, List.sum_cons, add_comm]

theorem succ_ne (j : Fin n) : j.succ ≠ j.castSucc := by intro h; have := congrArg Fin.val h; simp at this

theorem column (q A : Fin (n + 1) → ℝ) (j : Fin n) (hA : ∀ i, i ≠ j.succ → i ≠ j.castSucc → A i = 0) :
    dot (List.ofFn fun i => (q i, A i)) = q j.succ * A j.succ + q j.castSucc * A j.castSucc ∧
    dotAbs (List.ofFn fun i => (q i, A i)) = |q j.succ * A j.succ| + |q j.castSucc * A j.castSucc| ∧ nonzeros (List.ofFn fun i => (q i, A i)) ≤ 2 := by
  have hne := succ_ne j
  have key : ∀ F : ℝ → ℝ → ℝ, (∀ x, F x 0 = 0) → ∑ i, F (q i) (A i) = F (q j.succ) (A j.succ) + F (q j.castSucc) (A j.castSucc) := by
    intro F hF
    rw [← Finset.sum_pair (f := fun i => F (q i) (A i)) hne]
    symm
    refine Finset.sum_subset (Finset.subset_univ _) fun i _ hi => ?_
    simp only [Finset.mem_insert, Finset.mem_singleton, not_or] at hi
    rw [hA i hi.1 hi.2, hF]
  refine ⟨?_, ?_, ?_⟩
  · unfold dot
    rw [List.map_ofFn, List.sum_ofFn]
    exact key (fun x y => x * y) (by simp)
  · unfold dotAbs
    rw [List.map_ofFn, List.sum_ofFn]
    exact key (fun x y => |x * y|) (by simp)
  · rw [nonzeros_eq_sum, List.map_ofFn, List.sum_ofFn]
    have h1 : ∑ i, ((fun p : ℝ × ℝ => if p.1 * p.2 = 0 then 0 else 1) ∘ fun i => (q i, A i)) i
        = ∑ i ∈ {j.succ, j.castSucc}, ((fun p : ℝ × ℝ => if p.1 * p.2 = 0 then 0 else 1) ∘ fun i => (q i, A i)) i := by
      symm
      refine Finset.sum_subset (Finset.subset_univ _) fun i _ hi => ?_
      simp only [Finset.mem_insert, Finset.mem_singleton, not_or] at hi
      have := hA i hi.1 hi.2
      simp [this]
    rw [h1, Finset.sum_pair hne]
    simp only [Function.comp]
    split_ifs <;> omega

theorem column_zero (q A : Fin (n + 1) → ℝ) (hA : ∀ i, A i = 0) : nonzeros (List.ofFn fun i => (q i, A i)) = 0 := by
  rw [nonzeros_eq_sum, List.map_ofFn, List.sum_ofFn]
  exact Finset.sum_eq_zero fun i _ => by simp [hA i]

/-! ### Exact cells -/

theorem next_zero (w : Fin (n + 1) → ℝ) (h0 : w 0 = 1) (q : Cells ℝ S n) (s : S) : nextTimeStep w q s 0 = 0 := by
  unfold nextTimeStep Matrix.vecMul dotProduct
  refine Finset.sum_eq_zero fun i _ => ?_
  simp [CJ.shiftMatrix, h0]

theorem next_succ (w : Fin (n + 1) → ℝ) (q : Cells ℝ S n) (s : S) (j : Fin n) :
    nextTimeStep w q s j.succ = (1 - 1 / w j.succ) * q s j.succ + 1 / w j.succ * q s j.castSucc := by
  have hne := succ_ne j
  have e : nextTimeStep w q s j.succ = dot (List.ofFn fun i => (q s i, CJ.shiftMatrix w i j.succ)) := by
    unfold nextTimeStep Matrix.vecMul dot dotProduct
    rw [List.map_ofFn, List.sum_ofFn]
    rfl
  rw [e, (column (q s) (fun i => CJ.shiftMatrix w i j.succ) j fun i h1 h2 => by
    have : ¬ i.val = j.val := by intro h3; apply h2; ext; simpa using h3
    simp [CJ.shiftMatrix, h1, this]).1]
  simp [CJ.shiftMatrix, Ne.symm hne]
  ring

/-! ### Errors of the cells -/

/-- Computed widths whose entries of the shift matrix are off by at most `δ`. -/
structure Close (fl : ℝ → ℝ) (w W : Fin (n + 1) → ℝ) (δ : ℝ) : Prop where
  zero : w 0 = 1
  zero' : W 0 = 1
  one_le : ∀ k, 1 ≤ w k
  fromPrev : ∀ j : Fin n, |fl (1 / W j.succ) - 1 / w j.succ| ≤ δ
  keep : ∀ j : Fin n, |fl (1 - fl (1 / W j.succ)) - (1 - 1 / w j.succ)| ≤ δ

/-- Growth of the relative error in one step. -/
def stepError (u δ : ℝ) : ℝ := 2 * δ + ((1 + u) ^ 2 - 1) * (1 + 2 * δ)

/-- Error of the cells after `N` steps with loads of at most `Q`. -/
def cellError (u η δ Q : ℝ) (N : ℕ) : ℝ := ((1 + stepError u δ) ^ N - 1) * Q + N * (1 + stepError u δ) ^ N * (3 * (1 + u) ^ 2 * η)

theorem stepError_nonneg (hu : 0 ≤ u) {δ : ℝ} (hδ : 0 ≤ δ) : 0 ≤ stepError u δ := by
  unfold stepError
  have : 0 ≤ (1 + u) ^ 2 - 1 := by nlinarith
  positivity

theorem cellError_nonneg (hu : 0 ≤ u) (hη : 0 ≤ η) {δ Q : ℝ} (hδ : 0 ≤ δ) (hQ : 0 ≤ Q) (N : ℕ) : 0 ≤ cellError u η δ Q N := by
  have h1 := stepError_nonneg hu hδ
  have h2 : 0 ≤ (1 + stepError u δ) ^ N - 1 := sub_nonneg.mpr (one_le_pow₀ (by linarith))
  unfold cellError
  positivity

theorem cellError_succ (hu : 0 ≤ u) (hη : 0 ≤ η) {δ Q : ℝ} (hδ : 0 ≤ δ) (N : ℕ) :
    (1 + stepError u δ) * cellError u η δ Q N + stepError u δ * Q + 3 * (1 + u) ^ 2 * η ≤ cellError u η δ Q (N + 1) := by
  have h1 := stepError_nonneg hu hδ
  have h2 : 1 ≤ (1 + stepError u δ) ^ (N + 1) := one_le_pow₀ (by linarith)
  have h3 : 0 ≤ 3 * (1 + u) ^ 2 * η := by positivity
  have h4 := mul_le_mul_of_nonneg_right h2 h3
  have e : (1 + stepError u δ) * cellError u η δ Q N + stepError u δ * Q + 3 * (1 + u) ^ 2 * η
      = ((1 + stepError u δ) ^ (N + 1) - 1) * Q + N * (1 + stepError u δ) ^ (N + 1) * (3 * (1 + u) ^ 2 * η) + 1 * (3 * (1 + u) ^ 2 * η) := by
    unfold cellError
    ring
  rw [e]
  unfold cellError
  push_cast
  linarith

theorem dotError_le (hu : 0 ≤ u) (hη : 0 ≤ η) {m M : ℕ} (hm : m ≤ M) {A : ℝ} (hA : 0 ≤ A) : dotError u η m A ≤ dotError u η M A := by
  unfold dotError
  have p : (1 + u) ^ m ≤ (1 + u) ^ M := pow_le_pow_right₀ (by linarith) hm
  have c : ((2 * m - 1 : ℕ) : ℝ) ≤ (2 * M - 1 : ℕ) := by norm_cast; omega
  gcongr

theorem dotError_two (hu : 0 ≤ u) (hη : 0 ≤ η) {m : ℕ} (hm : m ≤ 2) {A : ℝ} (hA : 0 ≤ A) : dotError u η m A ≤ ((1 + u) ^ 2 - 1) * A + 3 * (1 + u) ^ 2 * η := by
  unfold dotError
  have p : (1 + u) ^ m ≤ (1 + u) ^ 2 := pow_le_pow_right₀ (by linarith) hm
  have c : ((2 * m - 1 : ℕ) : ℝ) ≤ 3 := by norm_cast; omega
  gcongr

theorem column_error (hu : 0 ≤ u) (hη : 0 ≤ η) {δ d a b z1 z2 q1 q2 Q E r : ℝ} {m : ℕ} (hd0 : 0 ≤ d) (hd1 : d ≤ 1) (hb : |b - d| ≤ δ) (ha : |a - (1 - d)| ≤ δ)
    (hE : 0 ≤ E) (hq1 : |q1| ≤ Q) (h1 : |z1 - q1| ≤ E) (hz1 : |z1| ≤ Q + E) (hz2 : |z2| ≤ Q + E) (h2 : |z2 - q2| ≤ E) (hm : m ≤ 2)
    (he : |r - (z1 * a + z2 * b)| ≤ dotError u η m (|z1 * a| + |z2 * b|)) :
    |r - ((1 - d) * q1 + d * q2)| ≤ (1 + stepError u δ) * E + stepError u δ * Q + 3 * (1 + u) ^ 2 * η := by
  have hQ : 0 ≤ Q := (abs_nonneg _).trans hq1
  have ha' : |a| ≤ (1 - d) + δ := by
    have := abs_add_le (1 - d) (a - (1 - d))
    rw [add_sub_cancel, abs_of_nonneg (by linarith : 0 ≤ 1 - d)] at this
    linarith
  have hb' : |b| ≤ d + δ := by
    have := abs_add_le d (b - d)
    rw [add_sub_cancel, abs_of_nonneg hd0] at this
    linarith
  have hsum : |z1 * a| + |z2 * b| ≤ (1 + 2 * δ) * (Q + E) := by
    rw [abs_mul, abs_mul]
    have p1 := mul_le_mul hz1 ha' (abs_nonneg _) (by linarith)
    have p2 := mul_le_mul hz2 hb' (abs_nonneg _) (by linarith)
    nlinarith
  have hp : 0 ≤ (1 + u) ^ 2 - 1 := by nlinarith
  have he2 := he.trans (dotError_two hu hη hm (by positivity))
  have he3 : |r - (z1 * a + z2 * b)| ≤ ((1 + u) ^ 2 - 1) * ((1 + 2 * δ) * (Q + E)) + 3 * (1 + u) ^ 2 * η := by
    have := mul_le_mul_of_nonneg_left hsum hp
    linarith
  have hlin : |z1 * a + z2 * b - ((1 - d) * q1 + d * q2)| ≤ 2 * δ * (Q + E) + E := by
    rw [show z1 * a + z2 * b - ((1 - d) * q1 + d * q2) = z1 * (a - (1 - d)) + z2 * (b - d) + ((1 - d) * (z1 - q1) + d * (z2 - q2)) by ring]
    refine (abs_add_le _ _).trans ?_
    have t1 := abs_add_le (z1 * (a - (1 - d))) (z2 * (b - d))
    have t2 := abs_add_le ((1 - d) * (z1 - q1)) (d * (z2 - q2))
    rw [abs_mul, abs_mul] at t1 t2
    rw [abs_of_nonneg hd0, abs_of_nonneg (by linarith : 0 ≤ 1 - d)] at t2
    have p1 := mul_le_mul hz1 ha (abs_nonneg _) (by linarith)
    have p2 := mul_le_mul hz2 hb (abs_nonneg _) (by linarith)
    have p3 := mul_le_mul_of_nonneg_left h1 (by linarith : 0 ≤ 1 - d)
    have p4 := mul_le_mul_of_nonneg_left h2 hd0
    linarith
  have := abs_add_le (r - (z1 * a + z2 * b)) (z1 * a + z2 * b - ((1 - d) * q1 + d * q2))
  rw [sub_add_sub_cancel] at this
  unfold stepError
  linarith

/-- Error of one time step. -/
theorem next_error (h : Rounding u η fl) (hu1 : u ≤ 1) {w W : Fin (n + 1) → ℝ} {δ : ℝ} (hδ : 0 ≤ δ) (hc : Close fl w W δ) {q q' Z : Cells ℝ S n} (hn : Next fl W Z q')
    {E Q : ℝ} (hE : 0 ≤ E) (s : S) (hq : ∀ k, |q s k| ≤ Q) (hz : ∀ k, |Z s k - q s k| ≤ E) (k : Fin (n + 1)) :
    |q' s k - nextTimeStep w q s k| ≤ (1 + stepError u δ) * E + stepError u δ * Q + 3 * (1 + u) ^ 2 * η := by
  have hu := h.u_nonneg
  have hη := h.η_nonneg
  have hQ : 0 ≤ Q := (abs_nonneg _).trans (hq k)
  have hs := stepError_nonneg hu hδ
  have hZ : ∀ k, |Z s k| ≤ Q + E := fun k => by
    have := abs_add_le (q s k) (Z s k - q s k)
    rw [add_sub_cancel] at this
    linarith [hq k, hz k]
  obtain ⟨-, hz0, he⟩ := Eval.error h (hn s k)
  induction k using Fin.cases with
  | zero =>
    have hA : ∀ i, shiftMatrix fl W i 0 = 0 := fun i => by
      rw [shiftMatrix_eq h, hc.zero', div_one, h.one hu1, sub_self, h.zero]
      simp
    rw [hz0 (column_zero (Z s) (fun i => shiftMatrix fl W i 0) hA), next_zero w hc.zero, sub_zero, abs_zero]
    positivity
  | succ j =>
    obtain ⟨e1, e2, e3⟩ := column (Z s) (fun i => shiftMatrix fl W i j.succ) j fun i h1 h2 => by
      have : ¬ i.val + 1 = j.succ.val := by intro h3; apply h2; ext; simp at h3 ⊢; omega
      show shiftMatrix fl W i j.succ = 0
      rw [shiftMatrix_eq h, if_neg h1, if_neg this]
    have a1 : shiftMatrix fl W j.succ j.succ = fl (1 - fl (1 / W j.succ)) := by rw [shiftMatrix_eq h, if_pos rfl]
    have a2 : shiftMatrix fl W j.castSucc j.succ = fl (1 / W j.succ) := by rw [shiftMatrix_eq h, if_neg (succ_ne j).symm, if_pos (by simp)]
    rw [a1, a2] at e1 e2
    have k1 := hc.fromPrev j
    have k2 := hc.keep j
    obtain ⟨d, hd⟩ : ∃ d, d = 1 / w j.succ := ⟨_, rfl⟩
    have hw := hc.one_le j.succ
    have hd0 : 0 ≤ d := by rw [hd]; positivity
    have hd1 : d ≤ 1 := by rw [hd]; exact (div_le_one (by linarith)).mpr hw
    rw [next_succ, ← hd]
    rw [← hd] at k1 k2
    rw [e1, e2] at he
    generalize fl (1 - fl (1 / W j.succ)) = a at *
    generalize fl (1 / W j.succ) = b at *
    exact column_error hu hη hd0 hd1 k1 k2 hE (hq _) (hz _) (hZ _) (hZ _) (hz _) e3 he

/-! ### Sequences of calls -/

open Classical in
/-- Number of calls of `next_time_step`. -/
def steps (ops : List (Op ℝ S)) : ℕ := ops.countP fun o => decide (o = .next)

theorem steps_append (a b : List (Op ℝ S)) : steps (a ++ b) = steps a + steps b := by simp [steps]
theorem steps_pair (l : S → ℝ) : steps [Op.next, Op.set l] = 1 := by simp [steps]
theorem steps_next (ops : List (Op ℝ S)) : steps (ops ++ [.next]) = steps ops + 1 := by simp [steps]
theorem steps_set (ops : List (Op ℝ S)) (l : S → ℝ) : steps (ops ++ [.set l]) = steps ops := by simp [steps]

/-- Errors of the computed cells after any sequence of calls. -/
theorem run_error (h : Rounding u η fl) (hu1 : u ≤ 1) {w W : Fin (n + 1) → ℝ} {δ : ℝ} (hδ : 0 ≤ δ) (hc : Close fl w W δ) {Q : ℝ} (hQ : 0 ≤ Q) {ops : List (Op ℝ S)} {Z : Cells ℝ S n}
    (hr : Run fl W ops Z) (hops : ∀ l, Op.set l ∈ ops → ∀ s, |l s| ≤ Q) (s : S) (k : Fin (n + 1)) :
    |Z s k - CJ.run w ops s k| ≤ cellError u η δ Q (steps ops) := by
  induction hr generalizing k with
  | init => simpa [initCells, CJ.run] using cellError_nonneg h.u_nonneg h.η_nonneg hδ hQ (steps [])
  | @next ops q q' hr hn ih =>
    have hb : ∀ k, |CJ.run w ops s k| ≤ Q := fun k => by
      rw [abs_le]
      exact cj_cells_bounded w hc.one_le (-Q) Q (by linarith) hQ ops s (fun l hl => abs_le.mp (hops l (List.mem_append_left _ hl) s)) k
    rw [steps_next, run_append]
    exact (next_error h hu1 hδ hc hn (cellError_nonneg h.u_nonneg h.η_nonneg hδ hQ _) s hb (ih fun l hl => hops l (List.mem_append_left _ hl)) k).trans
      (cellError_succ h.u_nonneg h.η_nonneg hδ _)
  | @set ops q l hr ih =>
    rw [steps_set, run_append]
    show |setCurrentLoad q l s k - setCurrentLoad (CJ.run w ops) l s k| ≤ _
    unfold setCurrentLoad
    by_cases hk : k = 0
    · subst hk
      simpa using cellError_nonneg h.u_nonneg h.η_nonneg hδ hQ _
    · rw [Function.update_of_ne hk, Function.update_of_ne hk]
      exact ih (fun l hl => hops l (List.mem_append_left _ hl)) k

/-! ### Temporal superposition -/

theorem increments_error (h : Rounding u η fl) (g : S → S → Fin (n + 1) → ℝ) (i j : S) (k : Fin (n + 1)) :
    |increments fl g i j k - CJ.increments g i j k| ≤ u * |CJ.increments g i j k| + η := by
  have hu := h.u_nonneg
  have hη := h.η_nonneg
  unfold increments CJ.increments
  by_cases hk : k = 0
  · rw [dif_pos hk, dif_pos hk, sub_self, abs_zero]
    positivity
  · rw [dif_neg hk, dif_neg hk]
    exact h.err _

variable [Fintype S]

theorem superposition_error (h : Rounding u η fl) {g : S → S → Fin (n + 1) → ℝ} {q Z : Cells ℝ S n} {i : S} {y Q E : ℝ} (hq : ∀ s k, |q s k| ≤ Q)
    (hz : ∀ s k, |Z s k - q s k| ≤ E) (hy : Superposed fl (increments fl g) Z i y) {G : ℝ} (hG : ∑ j, ∑ k, |CJ.increments g i j k| = G) {M : ℕ} (hM : Fintype.card S * (n + 1) = M) :
    |y - temporalSuperposition (CJ.increments g) q i| ≤
      ((1 + u) ^ M - 1) * (((1 + u) * G + M * η) * (Q + E)) + (2 * M - 1 : ℕ) * (1 + u) ^ M * η + (u * G + M * η) * (Q + E) + G * E := by
  have hu := h.u_nonneg
  have hη := h.η_nonneg
  have hQ : 0 ≤ Q := (abs_nonneg _).trans (hq i 0)
  have hZ : ∀ s k, |Z s k| ≤ Q + E := fun s k => by
    have := abs_add_le (q s k) (Z s k - q s k)
    rw [add_sub_cancel] at this
    linarith [hq s k, hz s k]
  obtain ⟨-, -, he⟩ := Eval.error h hy
  have sumPairs : ∀ F : S → Fin (n + 1) → ℝ, ((Finset.univ : Finset (S × Fin (n + 1))).toList.map fun p => F p.1 p.2).sum = ∑ j, ∑ k, F j k := fun F => by
    rw [Finset.sum_map_toList, Fintype.sum_prod_type]
  have e1 : dot ((Finset.univ : Finset (S × Fin (n + 1))).toList.map fun p => (increments fl g i p.1 p.2, Z p.1 p.2)) = ∑ j, ∑ k, increments fl g i j k * Z j k := by
    unfold dot
    rw [List.map_map]
    exact sumPairs fun j k => increments fl g i j k * Z j k
  have e2 : dotAbs ((Finset.univ : Finset (S × Fin (n + 1))).toList.map fun p => (increments fl g i p.1 p.2, Z p.1 p.2)) = ∑ j, ∑ k, |increments fl g i j k * Z j k| := by
    unfold dotAbs
    rw [List.map_map]
    exact sumPairs fun j k => |increments fl g i j k * Z j k|
  have hlen : nonzeros ((Finset.univ : Finset (S × Fin (n + 1))).toList.map fun p => (increments fl g i p.1 p.2, Z p.1 p.2)) ≤ M := by
    refine (nonzeros_le _).trans ?_
    simp [← hM]
  have cst : ∀ x : ℝ, ∑ _j : S, ∑ _k : Fin (n + 1), x = M * x := fun x => by
    rw [← hM]
    simp
    ring
  -- the computed increments
  have hB : ∑ j, ∑ k, |increments fl g i j k * Z j k| ≤ ((1 + u) * G + M * η) * (Q + E) := by
    have : ∀ j k, |increments fl g i j k * Z j k| ≤ ((1 + u) * |CJ.increments g i j k| + η) * (Q + E) := fun j k => by
      have a := increments_error h g i j k
      have b := abs_add_le (CJ.increments g i j k) (increments fl g i j k - CJ.increments g i j k)
      rw [add_sub_cancel] at b
      rw [abs_mul]
      exact mul_le_mul (by linarith) (hZ j k) (abs_nonneg _) (by positivity)
    refine (Finset.sum_le_sum fun j _ => Finset.sum_le_sum fun k _ => this j k).trans (le_of_eq ?_)
    simp only [← Finset.sum_mul, Finset.sum_add_distrib, ← Finset.mul_sum, hG, cst]
  have hD : |∑ j, ∑ k, increments fl g i j k * Z j k - temporalSuperposition (CJ.increments g) q i| ≤ (u * G + M * η) * (Q + E) + G * E := by
    unfold temporalSuperposition
    simp only [← Finset.sum_sub_distrib]
    refine (Finset.abs_sum_le_sum_abs _ _).trans ((Finset.sum_le_sum fun j _ => (Finset.abs_sum_le_sum_abs _ _).trans (Finset.sum_le_sum fun k _ =>
      (?_ : _ ≤ (u * |CJ.increments g i j k| + η) * (Q + E) + |CJ.increments g i j k| * E))).trans (le_of_eq ?_))
    · rw [show increments fl g i j k * Z j k - CJ.increments g i j k * q j k
        = (increments fl g i j k - CJ.increments g i j k) * Z j k + CJ.increments g i j k * (Z j k - q j k) by ring]
      refine (abs_add_le _ _).trans ?_
      rw [abs_mul, abs_mul]
      have a := mul_le_mul (increments_error h g i j k) (hZ j k) (abs_nonneg _) (by positivity)
      have b := mul_le_mul_of_nonneg_left (hz j k) (abs_nonneg (CJ.increments g i j k))
      linarith
    · simp only [← Finset.sum_mul, Finset.sum_add_distrib, ← Finset.mul_sum, hG, cst]
  rw [e1, e2] at he
  have hM0 : 0 ≤ ∑ j, ∑ k, |increments fl g i j k * Z j k| := Finset.sum_nonneg fun j _ => Finset.sum_nonneg fun k _ => abs_nonneg _
  have he2 := he.trans (dotError_le hu hη hlen hM0)
  have he3 := he2.trans (dotError_mono hu hB)
  have := abs_add_le (y - ∑ j, ∑ k, increments fl g i j k * Z j k) (∑ j, ∑ k, increments fl g i j k * Z j k - temporalSuperposition (CJ.increments g) q i)
  rw [sub_add_sub_cancel] at this
  unfold dotError at he3
  linarith

end Verif.LoadAgg.Rnd
