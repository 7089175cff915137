import Mathlib.Data.List.Forall2
import Mathlib.Tactic.IntervalCases

/-!
# Names in capital or small letters

A specification of "the same name in any case" that does not use the function that changes the case, for the properties C98 and C138.
-/

namespace Verif.Util

/-- Small letters and their capitals. -/
def letterPairs : List (Char × Char) := "abcdefghijklmnopqrstuvwxyz".toList.zip "ABCDEFGHIJKLMNOPQRSTUVWXYZ".toList

/-- Specification: `s` is the name `p`, in capital or small letters. -/
def Spells (s p : List Char) : Prop := List.Forall₂ (fun c C => c = C ∨ (c, C) ∈ letterPairs) s p

/-- Specification: a name in capital letters. -/
def Capitals (p : List Char) : Prop := ∀ C ∈ p, C ∈ letterPairs.map Prod.snd

theorem pair_upper : ∀ p ∈ letterPairs, p.1.toUpper = p.2 := by decide

theorem capital_upper : ∀ C ∈ letterPairs.map Prod.snd, C.toUpper = C := by decide

theorem upper_pair {c : Char} (h : c.toUpper ≠ c) : (c, c.toUpper) ∈ letterPairs := by
  have hr : 97 ≤ c.toNat ∧ c.toNat ≤ 122 := by
    by_contra hn
    refine h ?_
    unfold Char.toUpper
    rw [dif_neg]
    rintro ⟨h1, h2⟩
    exact hn ⟨h1, h2⟩
  obtain ⟨n, hn⟩ : ∃ n, n = c.toNat := ⟨_, rfl⟩
  have hc : c = Char.ofNat n := by rw [hn, Char.ofNat_toNat]
  rw [← hn] at hr
  obtain ⟨h1, h2⟩ := hr
  rw [hc]
  clear hc hn h
  interval_cases n <;> decide

theorem spells_iff {s p : List Char} (hp : Capitals p) : s.map Char.toUpper = p ↔ Spells s p := by
  unfold Spells
  induction s generalizing p with
  | nil => cases p <;> simp
  | cons c s ih =>
    cases p with
    | nil => simp
    | cons C p =>
      rw [List.map_cons, List.cons.injEq, List.forall₂_cons, ih fun x hx => hp x (List.mem_cons_of_mem _ hx)]
      refine and_congr_left fun _ => ⟨fun h => ?_, fun h => ?_⟩
      · by_cases he : c.toUpper = c
        · exact Or.inl (he ▸ h)
        · exact Or.inr (h ▸ upper_pair he)
      · rcases h with rfl | h
        · exact capital_upper c (hp c List.mem_cons_self)
        · exact pair_upper _ h

end Verif.Util
