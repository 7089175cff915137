import Verif.LoadAgg.CJSpec
import Verif.LoadAgg.OpsLemmas
import Mathlib.Tactic.Ring
import Mathlib.Tactic.FieldSimp
import Mathlib.Tactic.Linarith
import Mathlib.Tactic.LinearCombination

/-! # Helper lemmas for the Claesson-Javed scheme -/

set_option linter.unusedSectionVars false

namespace Verif.LoadAgg.CJ

open Finset

section field
variable {K : Type*} [Field K] {S : Type*} {n : ℕ}

/-- Entry 0 after `next_time_step`. -/
theorem next_zero (w : Fin (n + 1) → K) (q : Cells K S n) (s : S) :
    nextTimeStep w q s 0 = (1 - 1 / w 0) * q s 0 := by
  simp only [nextTimeStep, shiftMatrix, Matrix.vecMul, dotProduct]
  rw [Finset.sum_eq_single (0 : Fin (n + 1))]
  · simp; ring
  · intro b _ hb
    simp [hb]
  · simp

/-- Entry `k+1` after `next_time_step`. -/
theorem next_succ (w : Fin (n + 1) → K) (q : Cells K S n) (s : S) (k : Fin n) :
    nextTimeStep w q s k.succ
      = (1 - 1 / w k.succ) * q s k.succ + q s k.castSucc / w k.succ := by
  simp only [nextTimeStep, shiftMatrix, Matrix.vecMul, dotProduct]
  have : ∀ i : Fin (n + 1),
      q s i * ((1 - 1 / w k.succ) * (if i = k.succ then 1 else 0)
        + (if i.val + 1 = k.succ.val then 1 / w k.succ else 0))
      = (if i = k.succ then (1 - 1 / w k.succ) * q s i else 0)
        + (if i = k.castSucc then q s i / w k.succ else 0) := by
    intro i
    have hiff : (i.val + 1 = k.succ.val) ↔ i = k.castSucc := by
      rw [Fin.ext_iff]; simp
    simp only [hiff]
    split_ifs <;> ring
  simp_rw [this]
  rw [Finset.sum_add_distrib]
  simp

theorem run_append (w : Fin (n + 1) → K) (ops : List (Op K S)) (op : Op K S) :
    run w (ops ++ [op]) = step w (run w ops) op := by
  simp [run]

theorem outStep_fst (w : Fin (n + 1) → K) (s : S) (l : List (Op K S)) (p : Cells K S n × K) :
    (l.foldl (outStep w s) p).1 = l.foldl (step w) p.1 := by
  induction l generalizing p with
  | nil => rfl
  | cons a l ih => simp only [List.foldl_cons]; rw [ih]; cases a <;> rfl

theorem outflow_append_next (w : Fin (n + 1) → K) (s : S) (ops : List (Op K S)) :
    outflow w s (ops ++ [.next]) = outflow w s ops + run w ops s (Fin.last n) := by
  simp only [outflow, List.foldl_append, List.foldl_cons, List.foldl_nil, run]
  simp only [outStep]
  rw [outStep_fst]

theorem outflow_append_set (w : Fin (n + 1) → K) (s : S) (ops : List (Op K S)) (l : S → K) :
    outflow w s (ops ++ [.set l]) = outflow w s ops := by
  simp only [outflow, List.foldl_append, List.foldl_cons, List.foldl_nil]
  simp only [outStep]

/-- Total heat after a shift. -/
theorem energy_next (w : Fin (n + 1) → K) (hw : ∀ k, w k ≠ 0) (q : Cells K S n) (s : S) :
    ∑ k, w k * nextTimeStep w q s k = ∑ k, w k * q s k - q s (Fin.last n) := by
  rw [Fin.sum_univ_succ, next_zero]
  have h2 : ∀ k : Fin n, w k.succ * nextTimeStep w q s k.succ
      = w k.succ * q s k.succ - q s k.succ + q s k.castSucc := by
    intro k
    rw [next_succ]
    have := hw k.succ
    field_simp
  simp_rw [h2]
  rw [Finset.sum_add_distrib, Finset.sum_sub_distrib]
  have h3 : ∑ k, q s k = q s 0 + ∑ k : Fin n, q s k.succ := Fin.sum_univ_succ _
  have h4 : ∑ k, q s k = ∑ k : Fin n, q s k.castSucc + q s (Fin.last n) := Fin.sum_univ_castSucc _
  have h5 : ∑ k, w k * q s k = w 0 * q s 0 + ∑ k : Fin n, w k.succ * q s k.succ :=
    Fin.sum_univ_succ _
  have h6 : w 0 * ((1 - 1 / w 0) * q s 0) = w 0 * q s 0 - q s 0 := by
    have := hw 0
    field_simp
  rw [h5, h6]
  linear_combination h3 - h4

theorem energy_set (w : Fin (n + 1) → K) (q : Cells K S n) (l : S → K) (s : S) :
    ∑ k, w k * setCurrentLoad q l s k = ∑ k, w k * q s k - w 0 * q s 0 + w 0 * l s := by
  rw [Fin.sum_univ_succ, Fin.sum_univ_succ (f := fun k => w k * q s k)]
  simp only [setCurrentLoad, Function.update_self]
  have : ∀ k : Fin n, Function.update (q s) 0 (l s) k.succ = q s k.succ := by
    intro k; rw [Function.update_of_ne]; exact Fin.succ_ne_zero k
  simp_rw [this]
  ring

/-- Cell 0 always contains the latest load of the history. -/
theorem cell_zero (w : Fin (n + 1) → K) (hw0 : w 0 = 1) (ops : List (Op K S))
    (hp : Proper ops) (s : S) :
    run w ops s 0 = ((hist ops).headD (fun _ => 0)) s := by
  induction ops using List.reverseRecOn with
  | nil => rfl
  | append_singleton ops op _ =>
    rw [run_append, hist_append]
    cases op with
    | next => simp [step, next_zero, hw0, histStep]
    | set l => simp [step, setCurrentLoad, histStep]

/-- Cells beyond the number of time steps taken are still empty. -/
theorem cell_support (w : Fin (n + 1) → K) (ops : List (Op K S)) (hp : Proper ops) (s : S)
    (k : Fin (n + 1)) (hk : (hist ops).length ≤ k.val) : run w ops s k = 0 := by
  induction ops using List.reverseRecOn generalizing k with
  | nil => rfl
  | append_singleton ops op ih =>
    obtain ⟨hp', hop⟩ := proper_append hp
    have ih := ih hp'
    rw [run_append]
    rw [hist_append] at hk
    cases op with
    | next =>
      simp only [histStep, List.length_cons] at hk
      cases k using Fin.cases with
      | zero => simp at hk
      | succ k =>
        simp only [step, next_succ]
        simp only [Fin.val_succ] at hk
        rw [ih k.succ (by simp; omega), ih k.castSucc (by simp; omega)]
        simp
    | set l =>
      have hne : hist ops ≠ [] := by
        intro h
        rw [hist_eq_nil_iff] at h
        exact absurd (hop h) (by simp)
      have hlen : 0 < (hist ops).length := List.length_pos_iff.mpr hne
      simp only [histStep, List.length_cons, List.length_tail] at hk
      have hk0 : k ≠ 0 := by
        rintro rfl; simp at hk
      simp only [step, setCurrentLoad]
      rw [Function.update_of_ne hk0]
      exact ih k (by omega)

end field

end Verif.LoadAgg.CJ
