import Verif.Gf.TempProps

/-!
# Lemmas: division of the segments of a field
-/

noncomputable section

namespace Verif.Gf

open Bore FLS Sol

/-- `r'` divides every segment of `r` into one or more segments. -/
inductive Divides : List ℝ → List ℝ → Prop
  | nil : Divides [] []
  | cons (p : List ℝ) {r r' : List ℝ} (hp : ∀ x ∈ p, 0 < x) (hne : p ≠ []) : Divides r r' → Divides (p.sum :: r) (p ++ r')

/-- A list of boreholes of which every one is cut into segments. -/
inductive Cut : List Borehole → List Borehole → Prop
  | nil : Cut [] []
  | cons (s : Borehole) (u : List ℝ) {C L : List Borehole} (hp : ∀ x ∈ u, 0 < x) (hs : u.sum = 1) : Cut C L → Cut (s :: C) (s.segments u ++ L)

theorem Cut.append {C C' L L' : List Borehole} (h : Cut C L) (h' : Cut C' L') : Cut (C ++ C') (L ++ L') := by
  induction h with
  | nil => exact h'
  | cons s u hp hs _ ih => rw [List.cons_append, List.append_assoc]; exact .cons s u hp hs ih

theorem segmentAt_segmentAt {b : Borehole} (ht : b.tilt = 0) (z z' ρ ρ' : ℝ) : (b.segmentAt z ρ).segmentAt z' ρ' = b.segmentAt (z + z') (ρ' * ρ) := by
  simp [Borehole.segmentAt, Borehole.new, ht, tilted, mul_assoc, add_assoc]

theorem segsFrom_append (b : Borehole) (a : ℝ) (p r : List ℝ) : segsFrom b a (p ++ r) = segsFrom b a p ++ segsFrom b (a + p.sum) r := by
  induction p generalizing a with
  | nil => simp [segsFrom]
  | cons x p ih => simp [segsFrom, ih, add_assoc]

/-- The segments of a segment are segments of the borehole. -/
theorem segsFrom_part {b : Borehole} (ht : b.tilt = 0) (a c : ℝ) (p : List ℝ) (s : ℝ) (hs : s ≠ 0) :
    segsFrom (b.segmentAt (a * b.H) s) c (p.map (· / s)) = segsFrom b (a + c * s) p := by
  induction p generalizing c with
  | nil => rfl
  | cons x p ih =>
    simp only [List.map_cons, segsFrom]
    rw [ih, segmentAt_segmentAt ht, div_mul_cancel₀ _ hs, show (b.segmentAt (a * b.H) s).H = s * b.H from rfl, add_mul c, div_mul_cancel₀ _ hs]
    congr 2 <;> ring

theorem Divides.cut {r r' : List ℝ} (h : Divides r r') {b : Borehole} (ht : b.tilt = 0) (a : ℝ) : Cut (segsFrom b a r) (segsFrom b a r') := by
  induction h generalizing a with
  | nil => exact .nil
  | @cons p r r' hp hne _ ih =>
    have hs : 0 < p.sum := List.sum_pos p hp hne
    rw [segsFrom_append, segsFrom]
    have e := segsFrom_part ht a 0 p p.sum hs.ne'
    rw [zero_mul, add_zero, ← segments_eq] at e
    rw [← e]
    refine .cons _ _ (fun x hx => ?_) ?_ (ih _)
    · obtain ⟨y, hy, rfl⟩ := List.mem_map.mp hx
      exact div_pos (hp y hy) hs
    · have : (fun x => x / p.sum) = fun x => x * (p.sum)⁻¹ := by funext x; rw [div_eq_mul_inv]
      rw [this, List.sum_map_mul_right]
      simp [hs.ne']

theorem cut_segmentList {bs : List Borehole} {ns ns' : List ℕ} {rs rs' : List (List ℝ)} (ht : ∀ b ∈ bs, b.tilt = 0) (h : Consistent bs ns rs) (h' : Consistent bs ns' rs')
    (hd : List.Forall₂ Divides rs rs') : Cut (segmentList bs ns rs) (segmentList bs ns' rs') := by
  obtain ⟨hl, rfl⟩ := h
  obtain ⟨hl', rfl⟩ := h'
  induction hd generalizing bs with
  | nil => simpa [segmentList] using Cut.nil
  | cons h1 h2 ih =>
    cases bs with
    | nil => simp at hl
    | cons b bs =>
      simp only [segmentList, List.map_cons, List.zip_cons_cons, List.flatMap_cons]
      refine Cut.append ?_ (ih (fun c hc => ht c (List.mem_cons_of_mem _ hc)) (by simpa using hl) (by simpa using hl'))
      rw [segments_eq, segments_eq]
      exact h1.cut (ht b List.mem_cons_self) 0

/-- Rates of the segments are rates of their parts. -/
theorem Cut.lift {C L : List Borehole} (h : Cut C L) (qs : List ℝ) (hq : qs.length = C.length) :
    ∃ qs' : List ℝ, qs'.length = L.length ∧ ∀ φ ψ : Borehole → ℝ, (∀ s ∈ C, ∀ u : List ℝ, (∀ x ∈ u, 0 < x) → u.sum = 1 → ((s.segments u).map φ).sum = ψ s) →
      (List.zipWith (fun s q => q * φ s) L qs').sum = (List.zipWith (fun s q => q * ψ s) C qs).sum := by
  induction h generalizing qs with
  | nil => exact ⟨[], rfl, fun φ ψ _ => by simp⟩
  | cons s u hp hs _ ih =>
    cases qs with
    | nil => simp at hq
    | cons q qs =>
      obtain ⟨qs', hl, hv⟩ := ih qs (by simpa using hq)
      refine ⟨List.replicate (s.segments u).length q ++ qs', by simp [hl], fun φ ψ hφ => ?_⟩
      rw [List.zipWith_append (by simp), List.sum_append, List.zipWith_cons_cons, List.sum_cons, hv φ ψ fun s hs => hφ s (List.mem_cons_of_mem _ hs)]
      congr 1
      rw [← hφ s List.mem_cons_self u hp hs, ← List.sum_map_mul_left]
      congr 1
      generalize s.segments u = l
      induction l with
      | nil => rfl
      | cons x l ih => simp [List.replicate_succ, ih]

theorem zipWith_fin {L : List Borehole} {qs : List ℝ} (h : qs.length = L.length) (φ : Borehole → ℝ) :
    (List.zipWith (fun s q => q * φ s) L qs).sum = ∑ i : Fin L.length, qs[i.val]'(by omega) * φ L[i] := by
  have e : List.zipWith (fun s q => q * φ s) L qs = List.ofFn fun i : Fin L.length => qs[i.val]'(by omega) * φ L[i] := by
    refine List.ext_getElem (by simp [h]) fun k h1 h2 => by simp
  rw [e, List.sum_ofFn]

/-- The energy of rates of the segments is that of the same rates of their parts. -/
theorem Cut.energy {C L : List Borehole} (h : Cut C L) {F : Borehole → Borehole → ℝ}
    (hsrc : ∀ s ∈ C, ∀ c ∈ L, ∀ u : List ℝ, (∀ x ∈ u, 0 < x) → u.sum = 1 → ((s.segments u).map fun x => F x c).sum = F s c)
    (hrec : ∀ s ∈ C, ∀ c ∈ C, ∀ u : List ℝ, (∀ x ∈ u, 0 < x) → u.sum = 1 → ((c.segments u).map fun x => x.H * F s x).sum = c.H * F s c) (Q : Fin C.length → ℝ) :
    ∃ P : Fin L.length → ℝ, (∑ i, L[i].H * P i = ∑ i, C[i].H * Q i) ∧
      ∑ i, L[i].H * P i * ∑ j, F L[j] L[i] * P j = ∑ i, C[i].H * Q i * ∑ j, F C[j] C[i] * Q j := by
  obtain ⟨qs', hl, hv⟩ := h.lift (List.ofFn Q) (by simp)
  have hq : ∀ φ : Borehole → ℝ, (List.zipWith (fun s q => q * φ s) C (List.ofFn Q)).sum = ∑ i, Q i * φ C[i] := fun φ => by
    rw [zipWith_fin (by simp)]
    simp
  refine ⟨fun i => qs'[i.val]'(by omega), ?_, ?_⟩
  · have := hv Borehole.H Borehole.H fun s _ u _ hs => by rw [segments_sum, hs, mul_one]
    rw [hq, zipWith_fin hl] at this
    simpa only [mul_comm] using this
  · -- sources
    have h1 : ∀ c ∈ L, ∑ j : Fin L.length, F L[j] c * qs'[j.val]'(by omega) = ∑ j, F C[j] c * Q j := fun c hc => by
      have := hv (fun x => F x c) (fun x => F x c) fun s hs u hp hu => hsrc s hs c hc u hp hu
      rw [hq, zipWith_fin hl] at this
      simpa only [mul_comm] using this
    -- receivers
    have h2 := hv (fun c => c.H * ∑ j, F C[j] c * Q j) (fun c => c.H * ∑ j, F C[j] c * Q j) fun c hc u hp hu => by
      have e : ∀ x : Borehole, x.H * ∑ j, F C[j] x * Q j = ∑ j, Q j * (x.H * F C[j] x) := fun x => by
        rw [Finset.mul_sum]
        exact Finset.sum_congr rfl fun j _ => by ring
      simp only [e]
      have sw : ∀ l : List Borehole, (l.map fun x => ∑ j, Q j * (x.H * F C[j] x)).sum = ∑ j, Q j * (l.map fun x => x.H * F C[j] x).sum := fun l => by
        induction l with
        | nil => simp
        | cons x l ih => simp only [List.map_cons, List.sum_cons, ih, mul_add, Finset.sum_add_distrib]
      rw [sw]
      exact Finset.sum_congr rfl fun j _ => by rw [hrec C[j] (List.getElem_mem _) c hc u hp hu]
    rw [hq, zipWith_fin hl] at h2
    have e3 : ∀ i : Fin L.length, L[i].H * qs'[i.val]'(by omega) * ∑ j : Fin L.length, F L[j] L[i] * qs'[j.val]'(by omega) = qs'[i.val]'(by omega) * (L[i].H * ∑ j, F C[j] L[i] * Q j) := fun i => by
      rw [h1 L[i] (List.getElem_mem _)]
      ring
    rw [Finset.sum_congr rfl fun i _ => e3 i, h2]
    exact Finset.sum_congr rfl fun i _ => by ring

/-- A uniform temperature has the least energy of all rates of the same mean. -/
theorem energy_least {n : ℕ} {H Q P : Fin n → ℝ} {F : Fin n → Fin n → ℝ} (hdef : Definite H F) (hsym : ∀ i j, H i * F i j = H j * F j i) {T : ℝ} (hT : ∀ i, T = ∑ j, F i j * Q j)
    (hP : ∑ i, H i * P i = ∑ i, H i * Q i) : T * ∑ i, H i * Q i ≤ ∑ i, H i * P i * ∑ j, F i j * P j := by
  have h0 : 0 ≤ ∑ i, H i * (P i - Q i) * ∑ j, F i j * (P j - Q j) := by
    by_cases hd : (fun i => P i - Q i) = 0
    · have : ∀ i, P i - Q i = 0 := fun i => congrFun hd i
      simp [this]
    · exact (hdef _ hd).le
  have h3 : ∑ i, H i * Q i * ∑ j, F i j * P j = T * ∑ i, H i * P i := by
    have e : ∑ i, H i * Q i * ∑ j, F i j * P j = ∑ j, H j * P j * ∑ i, F j i * Q i := by
      simp only [Finset.mul_sum]
      rw [Finset.sum_comm]
      refine Finset.sum_congr rfl fun j _ => Finset.sum_congr rfl fun i _ => ?_
      linear_combination Q i * P j * hsym i j
    rw [e, Finset.mul_sum]
    exact Finset.sum_congr rfl fun i _ => by rw [← hT i]; ring
  have h4 : ∑ i, H i * (P i - Q i) * ∑ j, F i j * (P j - Q j)
      = (∑ i, H i * P i * ∑ j, F i j * P j) - (∑ i, H i * Q i * ∑ j, F i j * P j) - T * (∑ i, H i * P i - ∑ i, H i * Q i) := by
    rw [← Finset.sum_sub_distrib, ← Finset.sum_sub_distrib, Finset.mul_sum, ← Finset.sum_sub_distrib]
    refine Finset.sum_congr rfl fun i _ => ?_
    have e : ∑ j, F i j * (P j - Q j) = ∑ j, F i j * P j - T := by
      rw [hT i, ← Finset.sum_sub_distrib]
      exact Finset.sum_congr rfl fun j _ => by ring
    rw [e]; ring
  rw [h4, h3, hP, sub_self, mul_zero, sub_zero] at h0
  linarith

end Verif.Gf
