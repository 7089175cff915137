import Verif.LoadAgg.Ops
import Verif.Tac

/-! # Lemmas on call sequences and load histories -/

set_option linter.unusedSectionVars false

namespace Verif.LoadAgg

variable {K : Type*} [Field K] {S : Type*}

theorem hist_append (ops : List (Op K S)) (op : Op K S) :
    hist (ops ++ [op]) = histStep (hist ops) op := by
  simp [hist]

theorem proper_append {ops : List (Op K S)} {op : Op K S} (h : Proper (ops ++ [op])) :
    Proper ops ∧ (ops = [] → op = .next) := by
  cases ops with
  | nil => cases op <;> simp_all [Proper]
  | cons a l => cases a <;> simp_all [Proper]

theorem hist_ne_nil {ops : List (Op K S)} (h : ops ≠ []) : hist ops ≠ [] := by
  induction ops using List.reverseRecOn with
  | nil => simp at h
  | append_singleton ops op _ => rw [hist_append]; cases op <;> simp [histStep]

theorem hist_eq_nil_iff (ops : List (Op K S)) : hist ops = [] ↔ ops = [] := by
  constructor
  · intro h; by_contra hc; exact hist_ne_nil hc h
  · rintro rfl; rfl

end Verif.LoadAgg
