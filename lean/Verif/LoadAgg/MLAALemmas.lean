import Verif.LoadAgg.MLAAModel
import Verif.LoadAgg.OpsLemmas
import Verif.LoadAgg.SpecLemmas

/-! # Helper lemmas for the MLAA scheme -/

set_option linter.unusedSectionVars false

namespace Verif.LoadAgg.MLAA

open Finset

variable {K : Type*} [Field K] {S : Type*}

theorem run_append (P : Params) (ops : List (Op K S)) (op : Op K S) :
    run P (ops ++ [op]) = (run P ops).bind fun σ => step P σ op := by
  simp [run]

/-- Representation invariant: relation between the object and the load history `h`
(latest first). -/
structure Inv (P : Params) (h : List (S → K)) (σ : State K S) : Prop where
  nt : σ.nt = h.length
  le : h.length ≤ P.Nt
  qb : ∀ k, k < h.length → σ.qb (h.length - 1 - k) = h.getD k 0
  zero : ∀ p, h.length ≤ p → σ.qb p = 0
  n0 : σ.n0 = min h.length P.N0
  n1 : σ.n1 = if P.N0 + P.N1 ≤ h.length then P.N1 else 0
  n2 : σ.n2 = if P.N0 + P.N1 + P.N2 ≤ h.length then P.N2 else 0
  n3 : σ.n3 = if P.N0 + P.N1 + P.N2 + P.N3 ≤ h.length then P.N3 else 0
  n4 : σ.n4 = h.length - (σ.n0 + σ.n1 + σ.n2 + σ.n3)
  Q0 : ∀ k, k < σ.n0 → σ.Q0 (P.N0 - 1 - k) = h.getD k 0
  Q1 : P.N0 + P.N1 ≤ h.length →
    σ.Q1 = windowMean σ.qb (h.length - (σ.n0 + σ.n1)) (h.length - σ.n0)
  Q2 : P.N0 + P.N1 + P.N2 ≤ h.length →
    σ.Q2 = windowMean σ.qb (h.length - (σ.n0 + σ.n1 + σ.n2)) (h.length - (σ.n0 + σ.n1))
  Q3 : P.N0 + P.N1 + P.N2 + P.N3 ≤ h.length →
    σ.Q3 = windowMean σ.qb (h.length - (σ.n0 + σ.n1 + σ.n2 + σ.n3))
      (h.length - (σ.n0 + σ.n1 + σ.n2))
  Q4 : 0 < σ.n4 → σ.Q4 = windowMean σ.qb 0 σ.n4

theorem inv_init (P : Params) (h0 : 1 ≤ P.N0) : Inv P [] (init : State K S) where
  nt := rfl
  le := by simp
  qb := by simp
  zero := fun p _ => by simp [init]; rfl
  n0 := by simp [init]
  n1 := by simp [init]; omega
  n2 := by simp [init]; omega
  n3 := by simp [init]; omega
  n4 := by simp [init]
  Q0 := by simp [init]
  Q1 := by simp; omega
  Q2 := by simp; omega
  Q3 := by simp; omega
  Q4 := by simp [init]

theorem windowMean_congr (q q' : ℕ → S → K) (a b : ℕ) (h : ∀ i, a ≤ i → i < b → q i = q' i) :
    windowMean q a b = windowMean q' a b := by
  funext s
  simp only [windowMean]
  congr 1
  exact Finset.sum_congr rfl fun i hi => by
    rw [Finset.mem_Ico] at hi
    rw [h i hi.1 hi.2]

theorem inv_next (P : Params) (h : List (S → K)) (σ σ' : State K S)
    (hi : Inv P h σ) (hs : nextTimeStep P σ = some σ') : Inv P ((fun _ => 0) :: h) σ' := by
  unfold nextTimeStep at hs
  simp only at hs
  by_cases hNt : P.Nt < σ.nt + 1
  · rw [if_pos hNt] at hs; cases hs
  rw [if_neg hNt] at hs
  simp only [Option.some.injEq] at hs
  subst hs
  have hnt := hi.nt
  constructor
  · simp [hnt]
  · simp; omega
  · intro k hk
    simp only [List.length_cons, Nat.add_sub_cancel] at hk ⊢
    cases k with
    | zero => exact hi.zero h.length le_rfl
    | succ k =>
      rw [List.getD_cons_succ, ← hi.qb k (by omega)]
      congr 1
      omega
  · intro p hp
    exact hi.zero p (by simp at hp; omega)
  · simp only [List.length_cons, hnt]
    split_ifs <;> omega
  · simp only [List.length_cons, hnt]
  · simp only [List.length_cons, hnt]
  · simp only [List.length_cons, hnt]
  · simp only [List.length_cons, hnt]
  · intro k hk
    simp only [hnt] at hk ⊢
    rw [if_pos (by constructor <;> split_ifs at hk ⊢ <;> omega)]
    have e : h.length + 1 - (if h.length + 1 < P.N0 then h.length + 1 else P.N0)
        + (P.N0 - 1 - k - (P.N0 - if h.length + 1 < P.N0 then h.length + 1 else P.N0))
        = h.length - k := by
      split_ifs at hk ⊢ <;> omega
    rw [e]
    cases k with
    | zero => exact hi.zero h.length le_rfl
    | succ k =>
      rw [List.getD_cons_succ, ← hi.qb k (by split_ifs at hk <;> omega)]
      congr 1
      omega
  · intro hc
    simp only [List.length_cons] at hc
    simp only [hnt, List.length_cons, if_pos hc]
  · intro hc
    simp only [List.length_cons] at hc
    simp only [hnt, List.length_cons, if_pos hc]
  · intro hc
    simp only [List.length_cons] at hc
    simp only [hnt, List.length_cons, if_pos hc]
  · intro hc
    simp only at hc
    simp only [if_pos hc]

theorem inv_set (P : Params) (h0 : 1 ≤ P.N0) (a : S → K) (h : List (S → K)) (σ : State K S)
    (l : S → K) (hi : Inv P (a :: h) σ) : Inv P (l :: h) (setCurrentLoad P σ l) := by
  have hnt := hi.nt
  simp only [List.length_cons] at hnt
  have hn0 := hi.n0
  have hn4 := hi.n4
  simp only [List.length_cons] at hn0 hn4
  have hpos : 1 ≤ σ.n0 := by omega
  have hne : ∀ i, i < h.length → i ≠ h.length := fun i hi => by omega
  have hup : ∀ i, i < h.length → (setCurrentLoad P σ l).qb i = σ.qb i := by
    intro i hi
    simp only [setCurrentLoad, hnt]
    rw [if_neg (by omega), Nat.add_sub_cancel, Function.update_of_ne (by omega)]
  constructor
  · simpa [setCurrentLoad] using hnt
  · simpa using hi.le
  · intro k hk
    simp only [List.length_cons, Nat.add_sub_cancel] at hk ⊢
    cases k with
    | zero =>
      simp [setCurrentLoad, hnt]
    | succ k =>
      rw [hup _ (by omega)]
      have := hi.qb (k + 1) (by simpa using hk)
      simpa using this
  · intro p hp
    simp only [List.length_cons] at hp
    simp only [setCurrentLoad, hnt]
    rw [if_neg (by omega), Function.update_of_ne (by omega)]
    exact hi.zero p (by simpa using hp)
  · simpa [setCurrentLoad] using hi.n0
  · simpa [setCurrentLoad] using hi.n1
  · simpa [setCurrentLoad] using hi.n2
  · simpa [setCurrentLoad] using hi.n3
  · simpa [setCurrentLoad] using hi.n4
  · intro k hk
    simp only [setCurrentLoad] at hk ⊢
    cases k with
    | zero => simp
    | succ k =>
      rw [Function.update_of_ne (by omega)]
      simpa using hi.Q0 (k + 1) hk
  · intro hc
    simp only [List.length_cons] at hc ⊢
    rw [windowMean_congr _ σ.qb _ _ fun i _ hi2 => hup i (by
      simp only [setCurrentLoad] at hi2; omega)]
    simpa [setCurrentLoad] using hi.Q1 (by simpa using hc)
  · intro hc
    simp only [List.length_cons] at hc ⊢
    rw [windowMean_congr _ σ.qb _ _ fun i _ hi2 => hup i (by
      simp only [setCurrentLoad] at hi2; omega)]
    simpa [setCurrentLoad] using hi.Q2 (by simpa using hc)
  · intro hc
    simp only [List.length_cons] at hc ⊢
    rw [windowMean_congr _ σ.qb _ _ fun i _ hi2 => hup i (by
      simp only [setCurrentLoad] at hi2; omega)]
    simpa [setCurrentLoad] using hi.Q3 (by simpa using hc)
  · intro hc
    rw [windowMean_congr _ σ.qb _ _ fun i _ hi2 => hup i (by
      simp only [setCurrentLoad] at hi2; omega)]
    simpa [setCurrentLoad] using hi.Q4 (by simpa [setCurrentLoad] using hc)

/-- The invariant holds after every proper sequence of calls that does not fail. -/
theorem inv_run (P : Params) (h0 : 1 ≤ P.N0) (ops : List (Op K S)) (hp : Proper ops)
    (σ : State K S) (hr : run P ops = some σ) : Inv P (hist ops) σ := by
  induction ops using List.reverseRecOn generalizing σ with
  | nil =>
    simp only [run, List.foldl_nil, Option.some.injEq] at hr
    subst hr
    exact inv_init P h0
  | append_singleton ops op ih =>
    obtain ⟨hp', hop⟩ := proper_append hp
    rw [run_append] at hr
    cases hro : run P ops with
    | none => rw [hro] at hr; simp at hr
    | some τ =>
      rw [hro] at hr
      have hi := ih hp' τ hro
      rw [hist_append]
      cases op with
      | next => exact inv_next P _ τ σ hi hr
      | set l =>
        have hne : hist ops ≠ [] := by
          intro h
          rw [hist_eq_nil_iff] at h
          exact absurd (hop h) (by simp)
        obtain ⟨a, t, hat⟩ := List.exists_cons_of_ne_nil hne
        simp only [Option.bind_some, step, Option.some.injEq] at hr
        subst hr
        rw [hat] at hi ⊢
        exact inv_set P h0 a t τ l hi

/-- A window of the load array is the corresponding piece of the history. -/
theorem windowMean_eq (P : Params) (h : List (S → K)) (σ : State K S) (hi : Inv P h σ)
    (a b : ℕ) (hab : a + b ≤ h.length) (s : S) :
    windowMean σ.qb (h.length - (a + b)) (h.length - a) s
      = mean (((h.map fun l => l s).drop a).take b) := by
  simp only [windowMean, mean]
  have hlen : (((h.map fun l => l s).drop a).take b).length = b := by simp; omega
  rw [hlen, show h.length - a - (h.length - (a + b)) = b by omega]
  congr 1
  have hsum : ∀ (L : List K), L.sum = ∑ k ∈ range L.length, L.getD k 0 := by
    intro L
    induction L with
    | nil => simp
    | cons v t ih => rw [List.length_cons, Finset.sum_range_succ']; simp at *; rw [ih]; ring
  rw [hsum, hlen, Finset.sum_Ico_eq_sum_range, show h.length - a - (h.length - (a + b)) = b by omega,
    ← Finset.sum_range_reflect]
  refine Finset.sum_congr rfl fun k hk => ?_
  rw [Finset.mem_range] at hk
  have hq := hi.qb (a + k) (by omega)
  rw [show h.length - (a + b) + (b - 1 - k) = h.length - 1 - (a + k) by omega, hq]
  simp only [List.getD_eq_getElem?_getD]
  rw [List.getElem?_take_of_lt hk, List.getElem?_drop, List.getElem?_map,
    List.getElem?_eq_getElem (by omega)]
  simp

end Verif.LoadAgg.MLAA
