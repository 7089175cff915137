import Verif.Sol.SolveModel
import Verif.Sol.HistProps

/-! # Lemmas on the solution of the boundary conditions -/

noncomputable section

namespace Verif.Sol

open Matrix Bore

theorem allSome_iff {ι α : Type*} {f : ι → Option α} {g : ι → α} : allSome f = some g ↔ ∀ i, f i = some (g i) := by
  unfold allSome
  split_ifs with h
  · constructor
    · intro e i
      have := congrFun (Option.some.inj e) i
      rw [← this]; simp
    · intro e
      congr 1; funext i
      simp [e i]
  · constructor
    · intro e; exact absurd e (by simp)
    · intro e; exact absurd (fun i => by rw [e i]; rfl) h

theorem linsolve_mul {ι : Type*} [Fintype ι] [DecidableEq ι] {A : Matrix ι ι ℝ} {B X : ι → ℝ} (h : linsolve A B = some X) : A *ᵥ X = B := by
  unfold linsolve at h
  split_ifs at h with hd
  rw [← Option.some.inj h, mulVec_mulVec, Matrix.mul_nonsing_inv A hd, one_mulVec]

theorem linsolve_unique {ι : Type*} [Fintype ι] [DecidableEq ι] {A : Matrix ι ι ℝ} {B X Y : ι → ℝ} (h : linsolve A B = some X) (hY : A *ᵥ Y = B) : Y = X := by
  unfold linsolve at h
  split_ifs at h with hd
  rw [← Option.some.inj h, ← hY, mulVec_mulVec, Matrix.nonsing_inv_mul A hd, one_mulVec]

variable {n : ℕ}

/-! ### UBWT -/

theorem ubwtA_mul (H : Fin n → ℝ) (h : Matrix (Fin n) (Fin n) ℝ) (X : Fin n ⊕ Unit → ℝ) (T0 : Fin n → ℝ) (S : ℝ) :
    ubwtA H h *ᵥ X = Sum.elim (fun i => -T0 i) (fun _ => S) ↔
      (∀ i, X (.inr ()) = T0 i + ∑ j, h i j * X (.inl j)) ∧ ∑ i, H i * X (.inl i) = S := by
  rw [funext_iff, Sum.forall]
  unfold ubwtA
  simp only [mulVec, dotProduct, of_apply, Fintype.sum_sum_type, fromBlocks_apply₁₁, fromBlocks_apply₁₂, fromBlocks_apply₂₁, fromBlocks_apply₂₂, Sum.elim_inl, Sum.elim_inr,
    Finset.univ_unique, Finset.sum_singleton, PUnit.default_eq_unit, Matrix.zero_apply, zero_mul, add_zero]
  constructor
  · rintro ⟨h1, h2⟩
    exact ⟨fun i => by linarith [h1 i], h2 ()⟩
  · rintro ⟨h1, h2⟩
    exact ⟨fun i => by linarith [h1 i], fun _ => h2⟩

theorem ubwtStep_spec {H : Fin n → ℝ} {tl : List ℝ} {y : Fin n → Fin n → List ℝ} {past : List (Fin n → ℝ)} {p : ℕ} {x : (Fin n → ℝ) × ℝ}
    (h : ubwtStep H tl y past p = some x) :
    ∃ hdt T0, stepData tl y past p = some (hdt, T0) ∧ (∀ i, x.2 = T0 i + ∑ j, hdt i j * x.1 j) ∧ ∑ i, H i * x.1 i = ∑ i, H i ∧
      ∀ Q T, (∀ i, T = T0 i + ∑ j, hdt i j * Q j) → ∑ i, H i * Q i = ∑ i, H i → (Q, T) = x := by
  unfold ubwtStep at h
  split at h
  · simp at h
  · rename_i hdt T0 hs
    split at h
    · simp at h
    · rename_i X hX
      have hx := Option.some.inj h
      have := (ubwtA_mul H hdt X T0 _).mp (linsolve_mul hX)
      refine ⟨hdt, T0, hs, ?_, ?_, ?_⟩
      · rw [← hx]; exact this.1
      · rw [← hx]; exact this.2
      · intro Q T h1 h2
        have := linsolve_unique hX ((ubwtA_mul H hdt (Sum.elim Q fun _ => T) T0 _).mpr ⟨h1, h2⟩)
        rw [← hx, ← this]
        rfl

theorem ubwtLoop_spec {H : Fin n → ℝ} {tl : List ℝ} {y : Fin n → Fin n → List ℝ} {m : ℕ} {l : List ((Fin n → ℝ) × ℝ)} (h : ubwtLoop H tl y m = some l) :
    l.length = m ∧ ∀ p x, l[p]? = some x → ubwtStep H tl y ((l.take p).map Prod.fst) p = some x := by
  induction m generalizing l with
  | zero =>
    rw [ubwtLoop] at h
    rw [← Option.some.inj h]
    simp
  | succ m ih =>
    rw [ubwtLoop] at h
    split at h
    · simp at h
    · rename_i l' hl
      split at h
      · simp at h
      · rename_i x hx
        obtain ⟨hlen, hst⟩ := ih hl
        rw [← Option.some.inj h]
        refine ⟨by simp [hlen], fun p z hz => ?_⟩
        rcases lt_trichotomy p m with hp | hp | hp
        · rw [List.getElem?_append_left (by omega)] at hz
          rw [List.take_append_of_le_length (by omega)]
          exact hst p z hz
        · subst hp
          rw [List.getElem?_append_right (by omega), hlen, Nat.sub_self] at hz
          have : x = z := by simpa using hz
          rw [← this, List.take_left' hlen]
          exact hx
        · rw [List.getElem?_eq_none (by simp; omega)] at hz
          simp at hz

/-! ### MIFT -/

theorem miftA_mul (H : Fin n → ℝ) (f : Flow n) (h : Matrix (Fin n) (Fin n) ℝ) (X : Fin n ⊕ (Fin n ⊕ Unit) → ℝ) (T0 : Fin n → ℝ) (S : ℝ) :
    miftA H f h *ᵥ X = Sum.elim (fun i => -T0 i) (Sum.elim (fun _ => 0) fun _ => S) →
      (∀ i, X (.inr (.inl i)) = T0 i + ∑ j, h i j * X (.inl j)) ∧
      (∀ i, X (.inl i) + ∑ j, f.aB i j / (2 * Real.pi * f.ks * f.Hb i) * X (.inr (.inl j)) + f.aIn i / (2 * Real.pi * f.ks * f.Hb i) * X (.inr (.inr ())) = 0) ∧
      ∑ i, H i * X (.inl i) = S := by
  intro e
  rw [funext_iff, Sum.forall, Sum.forall] at e
  obtain ⟨h1, h2, h3⟩ := e
  unfold miftA at h1 h2 h3
  simp only [mulVec, dotProduct, of_apply, Fintype.sum_sum_type, fromBlocks_apply₁₁, fromBlocks_apply₁₂, fromBlocks_apply₂₁, fromBlocks_apply₂₂, Sum.elim_inl, Sum.elim_inr,
    Finset.univ_unique, Finset.sum_singleton, PUnit.default_eq_unit, Matrix.one_apply, zero_mul, add_zero, neg_mul, ite_mul, one_mul,
    Finset.sum_neg_distrib, Finset.sum_ite_eq, Finset.mem_univ, if_true, Pi.zero_apply, Finset.sum_const_zero] at h1 h2 h3
  exact ⟨fun i => by linarith [h1 i], fun i => by linarith [h2 i], h3 ()⟩

theorem miftStep_spec {H : Fin n → ℝ} {f : Flow n} {tl : List ℝ} {y : Fin n → Fin n → List ℝ} {past : List (Fin n → ℝ)} {p : ℕ} {x : MiftState n}
    (h : miftStep H f tl y past p = some x) :
    ∃ hdt T0, stepData tl y past p = some (hdt, T0) ∧ (∀ i, x.T i = T0 i + ∑ j, hdt i j * x.Q j) ∧
      (∀ i, x.Q i + ∑ j, f.aB i j / (2 * Real.pi * f.ks * f.Hb i) * x.T j + f.aIn i / (2 * Real.pi * f.ks * f.Hb i) * x.Tin = 0) ∧
      ∑ i, H i * x.Q i = ∑ i, H i ∧ x.g = effective (∑ i, H i) f x.Tin := by
  unfold miftStep at h
  split at h
  · simp at h
  · rename_i hdt T0 hs
    split at h
    · simp at h
    · rename_i X hX
      have hx := Option.some.inj h
      have := miftA_mul H f hdt X T0 _ (linsolve_mul hX)
      exact ⟨hdt, T0, hs, by rw [← hx]; exact this.1, by rw [← hx]; exact this.2.1, by rw [← hx]; exact this.2.2, by rw [← hx]⟩

theorem miftLoop_spec {H : Fin n → ℝ} {f : Flow n} {tl : List ℝ} {y : Fin n → Fin n → List ℝ} {m : ℕ} {l : List (MiftState n)} (h : miftLoop H f tl y m = some l) :
    l.length = m ∧ ∀ p x, l[p]? = some x → miftStep H f tl y ((l.take p).map MiftState.Q) p = some x := by
  induction m generalizing l with
  | zero =>
    rw [miftLoop] at h
    rw [← Option.some.inj h]
    simp
  | succ m ih =>
    rw [miftLoop] at h
    split at h
    · simp at h
    · rename_i l' hl
      split at h
      · simp at h
      · rename_i x hx
        obtain ⟨hlen, hst⟩ := ih hl
        rw [← Option.some.inj h]
        refine ⟨by simp [hlen], fun p z hz => ?_⟩
        rcases lt_trichotomy p m with hp | hp | hp
        · rw [List.getElem?_append_left (by omega)] at hz
          rw [List.take_append_of_le_length (by omega)]
          exact hst p z hz
        · subst hp
          rw [List.getElem?_append_right (by omega), hlen, Nat.sub_self] at hz
          have : x = z := by simpa using hz
          rw [← this, List.take_left' hlen]
          exact hx
        · rw [List.getElem?_eq_none (by simp; omega)] at hz
          simp at hz

/-! ### Times -/

theorem pLong_le (time : List ℝ) (thr : ℝ) : pLong time thr ≤ time.length := (List.takeWhile_sublist _).length_le

theorem timeLong_length (time : List ℝ) (thr : ℝ) : (timeLong time thr).length = if pLong time thr > 0 then time.length - pLong time thr + 1 else time.length := by
  unfold timeLong
  split_ifs <;> simp

/-- For sorted times, the linearized ones are those not above the threshold. -/
theorem pLong_iff {time : List ℝ} (hs : time.Pairwise (· ≤ ·)) (thr : ℝ) (k : ℕ) (t : ℝ) (hk : time[k]? = some t) : k < pLong time thr ↔ t ≤ thr := by
  unfold pLong
  induction time generalizing k with
  | nil => simp at hk
  | cons a l ih =>
    rw [List.pairwise_cons] at hs
    by_cases ha : a ≤ thr
    · rw [List.takeWhile_cons_of_pos (by simpa using ha)]
      cases k with
      | zero => have : a = t := by simpa using hk
                subst this; simpa using ha
      | succ k =>
        have := ih hs.2 k (by simpa using hk)
        rw [← this]; simp
    · rw [List.takeWhile_cons_of_neg (by simpa using ha)]
      have : ¬ t ≤ thr := by
        cases k with
        | zero => have : a = t := by simpa using hk
                  rwa [← this]
        | succ k =>
          have := hs.1 t (List.mem_of_getElem? (by simpa using hk))
          intro h; exact ha (this.trans h)
      simp [this]

/-- What the linearization does, for any series and rule `f` of its early values. -/
theorem linearized {α : Type*} (time : List ℝ) (thr : ℝ) (x : List α) (hx : x.length = (timeLong time thr).length) (d : α) (f : α → ℝ → α) (r : List α)
    (hr : r = if pLong time thr > 0 then ((time.take (pLong time thr)).map (f (x.headD d))) ++ x.tail else x) :
    r.length = time.length ∧ (∀ k t, time[k]? = some t → k < pLong time thr → ∃ x0, x[0]? = some x0 ∧ r[k]? = some (f x0 t)) ∧
      ∀ k, pLong time thr ≤ k → r[k]? = x[k + (timeLong time thr).length - time.length]? := by
  have hle := pLong_le time thr
  rw [timeLong_length] at hx ⊢
  split_ifs at hr hx ⊢ with hp
  · subst hr
    cases x with
    | nil => simp at hx
    | cons x0 xs =>
      have hlen : ((time.take (pLong time thr)).map (f x0)).length = pLong time thr := by simp [hle]
      refine ⟨?_, ?_, ?_⟩
      · simp at hx ⊢; omega
      · intro k t hk hkp
        refine ⟨x0, rfl, ?_⟩
        rw [List.headD_cons, List.getElem?_append_left (by omega), List.getElem?_map, List.getElem?_take_of_lt hkp, hk]
        rfl
      · intro k hk
        rw [List.headD_cons, List.getElem?_append_right (by omega), hlen, List.tail_cons, show k + (time.length - pLong time thr + 1) - time.length = k - pLong time thr + 1 by omega,
          List.getElem?_cons_succ]
  · subst hr
    refine ⟨hx, fun k t _ hk => by omega, fun k _ => by congr 1; omega⟩

end Verif.Sol
