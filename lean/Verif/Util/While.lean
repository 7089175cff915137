import Verif.Tac

/-!
# Big-step semantics of a Python `while` loop

`Loop cond body s s'` holds when the loop `while cond(s): s = body(s)`, started in `s`,
terminates in `s'`.  A loop that does not terminate has no final state.
-/

namespace Verif

/-- Terminating executions of `while cond: body`. -/
inductive Loop {σ : Type*} (cond : σ → Prop) (body : σ → σ) : σ → σ → Prop
  | done {s : σ} (h : ¬ cond s) : Loop cond body s s
  | step {s s' : σ} (h : cond s) (h' : Loop cond body (body s) s') : Loop cond body s s'

namespace Loop

variable {σ : Type*} {cond : σ → Prop} {body : σ → σ}

/-- A loop has at most one final state. -/
theorem det {s a b : σ} (ha : Loop cond body s a) (hb : Loop cond body s b) : a = b := by
  induction ha with
  | done h => cases hb with
    | done => rfl
    | step h' => exact absurd h' h
  | step h _ ih => cases hb with
    | done h' => exact absurd h h'
    | step _ h' => exact ih h'

/-- In a final state the condition is false. -/
theorem not_cond {s a : σ} (ha : Loop cond body s a) : ¬ cond a := by
  induction ha with
  | done h => exact h
  | step _ _ ih => exact ih

/-- Loop invariant rule. -/
theorem invariant {I : σ → Prop} (hI : ∀ s, I s → cond s → I (body s)) {s a : σ} (hs : I s)
    (ha : Loop cond body s a) : I a := by
  induction ha with
  | done => exact hs
  | step h _ ih => exact ih (hI _ hs h)

/-- If the condition fails after some number of iterations, the loop terminates after the
least such number. -/
theorem exists_of_iterate (s : σ) (n : ℕ) (hn : ¬ cond (body^[n] s)) :
    ∃ m ≤ n, (∀ k < m, cond (body^[k] s)) ∧ Loop cond body s (body^[m] s) := by
  induction n generalizing s with
  | zero => exact ⟨0, le_rfl, by simp, .done hn⟩
  | succ n ih =>
    by_cases hc : cond s
    · obtain ⟨m, hm, hk, hl⟩ := ih (body s) (by simpa [Function.iterate_succ] using hn)
      refine ⟨m + 1, by omega, ?_, .step hc (by simpa [Function.iterate_succ] using hl)⟩
      intro k hk'
      cases k with
      | zero => exact hc
      | succ k => simpa [Function.iterate_succ] using hk k (by omega)
    · exact ⟨0, by omega, by simp, .done hc⟩

end Loop

end Verif
