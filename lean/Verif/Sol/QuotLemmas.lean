import Verif.Sol.SolveProps

/-!
# Lemmas: sums of response factors over groups of sources
-/

noncomputable section

namespace Verif.Sol

open Matrix Bore

variable {n m : ℕ}

theorem zip_sum_on {ι : Type*} (s : Finset ι) (a : List ℝ) (f : ι → ℝ → ℝ) (w : List ℝ) :
    ∑ j ∈ s, (List.zipWith (· * ·) (a.map (f j)) w).sum = (List.zipWith (· * ·) (a.map fun t => ∑ j ∈ s, f j t) w).sum := by
  induction a generalizing w with
  | nil => simp
  | cons t a ih =>
    cases w with
    | nil => simp
    | cons v w => simp only [List.map_cons, List.zipWith_cons_cons, List.sum_cons, Finset.sum_add_distrib, ih, Finset.sum_mul]

theorem interpGo_sum_on {ι : Type*} (s : Finset ι) (x a : ℝ) (A : ι → ℝ) (l : List ℝ) (f : ι → ℝ → ℝ) :
    ∑ j ∈ s, interpGo x (a, A j) (List.zip l (l.map (f j))) = interpGo x (a, ∑ j ∈ s, A j) (List.zip l (l.map fun t => ∑ j ∈ s, f j t)) := by
  have hline : ∀ (a t : ℝ) (A B : ι → ℝ), ∑ j ∈ s, line (a, A j) (t, B j) x = line (a, ∑ j ∈ s, A j) (t, ∑ j ∈ s, B j) x := fun a t A B => by
    simp only [line, Finset.sum_add_distrib, ← Finset.sum_mul, ← Finset.sum_div, Finset.sum_sub_distrib]
  induction l generalizing a A with
  | nil => simp [interpGo]
  | cons t l ih =>
    cases l with
    | nil => simpa [interpGo] using hline a t A fun j => f j t
    | cons t' l =>
      simp only [List.map_cons, List.zip_cons_cons, interpGo] at ih ⊢
      split_ifs with hc
      · exact hline a t A fun j => f j t
      · exact ih t fun j => f j t

theorem interp_value {x : ℝ} {l : List ℝ} {f : ℝ → ℝ} {v : ℝ} (h : interp (List.zip (0 :: l) (0 :: l.map f)) x = some v) : v = interpGo x (0, 0) (List.zip l (l.map f)) := by
  rw [List.zip_cons_cons] at h
  unfold interp at h
  dsimp only at h
  split_ifs at h
  exact (Option.some.inj h).symm

/-- The sources are in groups: `π i` is the group of the source `i`; the sources of each group together have the same response at all sources of a group. -/
def Grouped (π : Fin n → Fin m) (F : Fin n → Fin n → ℝ → ℝ) (F' : Fin m → Fin m → ℝ → ℝ) (tl : List ℝ) : Prop :=
  ∀ i c, ∀ t ∈ tl, ∑ k with π k = c, F i k t = F' (π i) c t

variable {π : Fin n → Fin m} {F : Fin n → Fin n → ℝ → ℝ} {F' : Fin m → Fin m → ℝ → ℝ} {tl : List ℝ}

theorem stepData_grouped (hG : Grouped π F F' tl) {past' : List (Fin m → ℝ)} {p : ℕ} {h : Matrix (Fin n) (Fin n) ℝ} {h' : Matrix (Fin m) (Fin m) ℝ} {T0 : Fin n → ℝ} {T0' : Fin m → ℝ}
    (hs : stepData tl (fun i j => tl.map (F i j)) (past'.map fun Q i => Q (π i)) p = some (h, T0)) (hs' : stepData tl (fun i j => tl.map (F' i j)) past' p = some (h', T0')) :
    (∀ i c, ∑ k with π k = c, h i k = h' (π i) c) ∧ ∀ i, T0 i = T0' (π i) := by
  obtain ⟨a, R, hR, hT⟩ := stepData_spec hs
  obtain ⟨a', R', hR', hT'⟩ := stepData_spec hs'
  have hRR : ∀ j, R j = R' (π j) := fun j => by
    have e1 := hR j
    rw [List.map_map] at e1
    have e2 := hR' (π j)
    exact Option.some.inj (e1.symm.trans e2)
  have hcongr : ∀ i c, (tl.map fun t => ∑ k with π k = c, F i k t) = tl.map (F' (π i) c) := fun i c => List.map_congr_left fun t ht => hG i c t ht
  refine ⟨fun i c => ?_, fun i => ?_⟩
  · rw [interp_value (a' (π i) c), ← hcongr i c]
    rw [Finset.sum_congr rfl fun k _ => interp_value (a i k), interpGo_sum_on _ _ 0 (fun _ => 0) tl (F i)]
    simp
  · have e1 := hT i
    have e2 := hT' (π i)
    unfold superpose at e1 e2
    split_ifs at e1 e2
    rw [← Option.some.inj e1, ← Option.some.inj e2, ← Finset.sum_fiberwise Finset.univ π]
    refine Finset.sum_congr rfl fun c _ => ?_
    have : ∀ k ∈ Finset.univ.filter (fun k => π k = c), (List.zipWith (· * ·) ((tl.map (F i k)).take (R k).length) (diffs (R k)).reverse).sum =
        (List.zipWith (· * ·) ((tl.take (R' c).length).map (F i k)) (diffs (R' c)).reverse).sum := fun k hk => by
      rw [hRR k, (Finset.mem_filter.mp hk).2, List.map_take]
    rw [Finset.sum_congr rfl this, zip_sum_on]
    dsimp only
    rw [← hcongr i c, ← List.map_take]

theorem sum_lift (π : Fin n → Fin m) (w : Fin n → ℝ) (q : Fin m → ℝ) : ∑ k, w k * q (π k) = ∑ c, (∑ k with π k = c, w k) * q c := by
  rw [← Finset.sum_fiberwise Finset.univ π]
  refine Finset.sum_congr rfl fun c _ => ?_
  rw [Finset.sum_mul]
  exact Finset.sum_congr rfl fun k hk => by rw [(Finset.mem_filter.mp hk).2]

theorem sum_groups (π : Fin n → Fin m) {H : Fin n → ℝ} {H' : Fin m → ℝ} (hH : ∀ c, ∑ k with π k = c, H k = H' c) : ∑ k, H k = ∑ c, H' c := by
  rw [← Finset.sum_fiberwise Finset.univ π]
  exact Finset.sum_congr rfl fun c _ => hH c

theorem ubwtLoop_succ {H : Fin n → ℝ} {y : Fin n → Fin n → List ℝ} {p : ℕ} {l : List ((Fin n → ℝ) × ℝ)} (h : ubwtLoop H tl y (p + 1) = some l) :
    ∃ l0 x, ubwtLoop H tl y p = some l0 ∧ ubwtStep H tl y (l0.map Prod.fst) p = some x ∧ l = l0 ++ [x] := by
  rw [ubwtLoop] at h
  split at h
  · simp at h
  · rename_i l0 h0
    split at h
    · simp at h
    · rename_i x hx
      exact ⟨l0, x, h0, hx, (Option.some.inj h).symm⟩

theorem miftLoop_succ {H : Fin n → ℝ} {f : Flow n} {y : Fin n → Fin n → List ℝ} {p : ℕ} {l : List (MiftState n)} (h : miftLoop H f tl y (p + 1) = some l) :
    ∃ l0 x, miftLoop H f tl y p = some l0 ∧ miftStep H f tl y (l0.map MiftState.Q) p = some x ∧ l = l0 ++ [x] := by
  rw [miftLoop] at h
  split at h
  · simp at h
  · rename_i l0 h0
    split at h
    · simp at h
    · rename_i x hx
      exact ⟨l0, x, h0, hx, (Option.some.inj h).symm⟩

/-- A step has one solution only. -/
theorem miftStep_unique {H : Fin n → ℝ} {f : Flow n} {y : Fin n → Fin n → List ℝ} {past : List (Fin n → ℝ)} {p : ℕ} {x : MiftState n} (h : miftStep H f tl y past p = some x)
    {hdt : Matrix (Fin n) (Fin n) ℝ} {T0 : Fin n → ℝ} (hs : stepData tl y past p = some (hdt, T0)) {Q T : Fin n → ℝ} {Tin : ℝ} (h1 : ∀ i, T i = T0 i + ∑ j, hdt i j * Q j)
    (h2 : ∀ i, Q i + ∑ j, f.aB i j / (2 * Real.pi * f.ks * f.Hb i) * T j + f.aIn i / (2 * Real.pi * f.ks * f.Hb i) * Tin = 0) (h3 : ∑ i, H i * Q i = ∑ i, H i) :
    Q = x.Q ∧ T = x.T ∧ Tin = x.Tin := by
  unfold miftStep at h
  rw [hs] at h
  dsimp only at h
  split at h
  · simp at h
  · rename_i X hX
    have hx := Option.some.inj h
    unfold linsolve at hX
    split_ifs at hX with hu
    have hY : miftA H f hdt *ᵥ (Sum.elim Q (Sum.elim T fun _ => Tin)) = Sum.elim (fun i => -T0 i) (Sum.elim (fun _ => 0) fun _ => ∑ i, H i) := by
      funext k
      unfold miftA
      rcases k with i | i | u
      · have := h1 i
        simp [mulVec, dotProduct, Fintype.sum_sum_type, Matrix.one_apply, Finset.sum_neg_distrib]
        linarith
      · have := h2 i
        simp [mulVec, dotProduct, Fintype.sum_sum_type, Matrix.one_apply]
        linarith
      · simpa [mulVec, dotProduct, Fintype.sum_sum_type] using h3
    have : X = Sum.elim Q (Sum.elim T fun _ => Tin) := by
      rw [← Option.some.inj hX, ← hY, Matrix.mulVec_mulVec, Matrix.nonsing_inv_mul _ hu, Matrix.one_mulVec]
    rw [← hx, this]
    exact ⟨rfl, rfl, rfl⟩

end Verif.Sol
