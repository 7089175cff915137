import Verif.Gf.TempLemmas

/-!
# Properties of a g-function from start to end: uniform temperature, mixed inlet temperature (C100)
-/

noncomputable section

namespace Verif.Gf

open Bore FLS Sol

variable {rb : ℝ} {bs : List Borehole} {ns : List ℕ} {rs : List (List ℝ)} {alpha : ℝ} {K : ℝ → Bool → Borehole → Borehole → ℝ}

/-- The response of the segment `i` to the segment `j` at the time `t`. -/
def segmentResponse (alpha : ℝ) (bs : List Borehole) (ns : List ℕ) (rs : List (List ℝ)) (i j : Fin (segmentList bs ns rs).length) (t : ℝ) : ℝ :=
  fls t alpha (pairOf (segmentList bs ns rs)[j] (segmentList bs ns rs)[i]) true true

theorem responses_sampled (hK : ∀ t s r, K t true s r = fls t alpha (pairOf s r) true true) (hU : Upright rb bs) (h : Splits bs ns rs) :
    Sampled (segmentResponse alpha bs ns rs) (responses K bs ns rs) := fun tl i j => by
  unfold responses
  exact List.map_congr_left fun t _ => (detailed_value hK hU h t).2 i j

theorem segments_nonempty (hU : Upright rb bs) (h : Splits bs ns rs) : 0 < (segmentList bs ns rs).length := by
  by_contra hn
  have e : segmentList bs ns rs = [] := List.length_eq_zero_iff.mp (by omega)
  have h1 := segmentList_H h
  rw [e] at h1
  have := hU.total
  simp at h1
  linarith

theorem increasing_pos {time : List ℝ} {thr : ℝ} (hi : Increasing 0 (timeLong time thr)) : ∀ t ∈ timeLong time thr, 0 < t := increasing_gt hi

/-- **C100** (no exception).  For a field of vertical boreholes with spacings of at least ten radii, the g-function with a uniform temperature is returned for all increasing times
and all discretizations: the linear systems are never singular. -/
theorem temperature_returns (ha : 0 < alpha) (hK : ∀ t s r, K t true s r = fls t alpha (pairOf s r) true true) (hU : Upright rb bs) (h : Splits bs ns rs) (hsp : Spaced rb bs)
    {time : List ℝ} (hpos : ∀ t ∈ time, 0 < t) (hs : time.Pairwise (· < ·)) {thr : ℝ} (hthr : 0 < thr) : ∃ out, temperatureDetailed K bs ns rs time thr = some out := by
  have hi := timeLong_increasing hpos hs hthr
  unfold temperatureDetailed
  rw [if_pos fun t _ => (detailed_value hK hU h t).1]
  refine ubwt_returns (segments_nonempty hU h) (segmentResponse alpha bs ns rs) (responses_sampled hK hU h) hi fun m p hp hm => ?_
  have e : responses K bs ns rs (timeLong time thr) = fun i j => (timeLong time thr).map (segmentResponse alpha bs ns rs i j) := by
    funext i j; exact responses_sampled hK hU h _ i j
  rw [e] at hm
  exact definite_step (segmentResponse alpha bs ns rs) hi (fun t ht => responses_definite ha hU h hsp (increasing_gt hi t ht)) hp hm

/-- **C100** (no exception, MIFT).  The same with a mixed inlet temperature, for a network that passively exchanges heat. -/
theorem mixed_returns (ha : 0 < alpha) (hK : ∀ t s r, K t true s r = fls t alpha (pairOf s r) true true) (hU : Upright rb bs) (h : Splits bs ns rs) (hsp : Spaced rb bs)
    {time : List ℝ} (hpos : ∀ t ∈ time, 0 < t) (hs : time.Pairwise (· < ·)) {thr : ℝ} (hthr : 0 < thr) {f : Flow (segmentList bs ns rs).length} (hf : Passive f fun _ => 1) (hks : 0 < f.ks)
    (hHb : f.Hb = segmentLengths bs ns rs) : ∃ out, mixedDetailed K bs ns rs f time thr = some out := by
  have hi := timeLong_increasing hpos hs hthr
  obtain ⟨bore, hst, -⟩ := segment_data hU h
  unfold mixedDetailed
  rw [if_pos fun t _ => (detailed_value hK hU h t).1]
  refine mift_returns (segmentResponse alpha bs ns rs) (responses_sampled hK hU h) hi (fun m p hp hm => ?_) hf hks (fun i => by rw [hHb]; exact hst.len i) fun i => by rw [hHb, one_mul]
  have e : responses K bs ns rs (timeLong time thr) = fun i j => (timeLong time thr).map (segmentResponse alpha bs ns rs i j) := by
    funext i j; exact responses_sampled hK hU h _ i j
  rw [e] at hm
  exact definite_step (segmentResponse alpha bs ns rs) hi (fun t ht => responses_definite ha hU h hsp (increasing_gt hi t ht)) hp hm

/-- The mean over segments is the mean over boreholes. -/
theorem segments_mean (hU : Upright rb bs) (h : Splits bs ns rs) (t : ℝ) :
    (∑ i, segmentLengths bs ns rs i * ∑ j, segmentResponse alpha bs ns rs i j t) = fieldResponse alpha bs t * ∑ i, segmentLengths bs ns rs i := by
  have e1 : ∑ i, segmentLengths bs ns rs i = (bs.map Borehole.H).sum := by
    rw [← segmentList_H h]
    exact Fin.sum_univ_fun_getElem _ Borehole.H
  have e2 : (∑ i, segmentLengths bs ns rs i * ∑ j, segmentResponse alpha bs ns rs i j t) = totalResponse (fun s r => fls t alpha (pairOf s r) true true) bs := by
    rw [← totalResponse_segments t alpha hU h true true]
    unfold totalResponse
    have hin : ∀ i, ∑ j, segmentResponse alpha bs ns rs i j t = ((segmentList bs ns rs).map fun b => fls t alpha (pairOf b (segmentList bs ns rs)[i]) true true).sum := fun i =>
      Fin.sum_univ_fun_getElem _ fun b => fls t alpha (pairOf b (segmentList bs ns rs)[i]) true true
    simp only [hin]
    exact Fin.sum_univ_fun_getElem _ fun c => c.H * ((segmentList bs ns rs).map fun b => fls t alpha (pairOf b c) true true).sum
  rw [e1, e2]
  unfold fieldResponse meanResponse
  rw [div_mul_cancel₀ _ hU.total.ne']

/-- A symmetric and positive form: the uniform temperature at unit mean rate is positive and at most the mean temperature at the rate one. -/
theorem energy_bound {n : ℕ} {H Q : Fin n → ℝ} {F : Fin n → Fin n → ℝ} (hn : 0 < n) (hH : ∀ i, 0 < H i) (hdef : Definite H F) (hsym : ∀ i j, H i * F i j = H j * F j i) {T : ℝ}
    (hT : ∀ i, T = ∑ j, F i j * Q j) (hQ : ∑ i, H i * Q i = ∑ i, H i) : 0 < T ∧ T * ∑ i, H i ≤ ∑ i, H i * ∑ j, F i j := by
  have hS : 0 < ∑ i, H i := Finset.sum_pos (fun i _ => hH i) ⟨⟨0, hn⟩, Finset.mem_univ _⟩
  have hQ0 : Q ≠ 0 := by
    rintro rfl
    simp at hQ
    linarith
  have h1 : ∑ i, H i * Q i * ∑ j, F i j * Q j = T * ∑ i, H i := by
    rw [← hQ, Finset.mul_sum]
    exact Finset.sum_congr rfl fun i _ => by rw [← hT i]; ring
  have hpos := hdef Q hQ0
  rw [h1] at hpos
  refine ⟨by
    by_contra hle
    nlinarith, ?_⟩
  -- the deviation from the uniform rate has a non-negative form
  have h2 : 0 ≤ ∑ i, H i * (1 - Q i) * ∑ j, F i j * (1 - Q j) := by
    by_cases hd : (fun i => 1 - Q i) = 0
    · have : ∀ i, 1 - Q i = 0 := fun i => congrFun hd i
      simp [this]
    · exact (hdef _ hd).le
  have h3 : ∑ i, H i * Q i * ∑ j, F i j = T * ∑ i, H i := by
    have e : ∑ i, H i * Q i * ∑ j, F i j = ∑ j, H j * ∑ i, F j i * Q i := by
      simp only [Finset.mul_sum]
      rw [Finset.sum_comm]
      refine Finset.sum_congr rfl fun j _ => Finset.sum_congr rfl fun i _ => ?_
      linear_combination Q i * hsym i j
    rw [e, Finset.mul_sum]
    exact Finset.sum_congr rfl fun i _ => by rw [← hT i]; ring
  have h4 : ∑ i, H i * (1 - Q i) * ∑ j, F i j * (1 - Q j) = (∑ i, H i * ∑ j, F i j) - (∑ i, H i * Q i * ∑ j, F i j) - (∑ i, H i * (1 - Q i)) * T := by
    rw [Finset.sum_mul, ← Finset.sum_sub_distrib, ← Finset.sum_sub_distrib]
    refine Finset.sum_congr rfl fun i _ => ?_
    have e : ∑ j, F i j * (1 - Q j) = ∑ j, F i j - T := by
      rw [hT i, ← Finset.sum_sub_distrib]
      exact Finset.sum_congr rfl fun j _ => by ring
    rw [e]; ring
  have h5 : ∑ i, H i * (1 - Q i) = 0 := by
    have : ∑ i, H i * (1 - Q i) = ∑ i, H i - ∑ i, H i * Q i := by
      rw [← Finset.sum_sub_distrib]
      exact Finset.sum_congr rfl fun i _ => by ring
    rw [this, hQ, sub_self]
  rw [h4, h3, h5] at h2
  linarith

theorem segment_reciprocity (hU : Upright rb bs) (h : Splits bs ns rs) (t : ℝ) (i j : Fin (segmentList bs ns rs).length) :
    segmentLengths bs ns rs i * segmentResponse alpha bs ns rs i j t = segmentLengths bs ns rs j * segmentResponse alpha bs ns rs j i t := by
  obtain ⟨bore, hst, hxy⟩ := segment_data hU h
  exact reciprocity_boreholes t alpha _ _ (by rw [(hxy j).2.2, (hxy i).2.2]) (hst.len j).ne' (hst.len i).ne' true true

/-- **C100** (bounds).  At the first time, and at all times under the threshold for linearization, the g-function with a uniform temperature is positive and at most that with a
uniform heat extraction rate.  At all times the mean heat extraction rate is one. -/
theorem temperature_first (ha : 0 < alpha) (hK : ∀ t s r, K t true s r = fls t alpha (pairOf s r) true true) (hU : Upright rb bs) (h : Splits bs ns rs) (hsp : Spaced rb bs)
    {time : List ℝ} (hpos : ∀ t ∈ time, 0 < t) (hs : time.Pairwise (· < ·)) {thr : ℝ} (hthr : 0 < thr) {g : List ℝ} {Qs : List (Fin (segmentList bs ns rs).length → ℝ)}
    (hout : temperatureDetailed K bs ns rs time thr = some (g, Qs)) :
    g.length = time.length ∧ Qs.length = time.length ∧ (∀ Q ∈ Qs, MeanOne (segmentLengths bs ns rs) Q) ∧
    ∃ g', uniformDetailed K bs ns rs time thr = some g' ∧ ∀ (k : ℕ) (t : ℝ), time[k]? = some t → (k = 0 ∨ t ≤ thr) → ∃ v w, g[k]? = some v ∧ g'[k]? = some w ∧ 0 < v ∧ v ≤ w := by
  unfold temperatureDetailed at hout
  rw [if_pos fun t _ => (detailed_value hK hU h t).1] at hout
  have hsle := hs.imp fun {a b : ℝ} (h : a < b) => h.le
  obtain ⟨m1, m2, m3, m4⟩ := ubwt_mean_one hout
  obtain ⟨g', hg', hl', hv'⟩ := uniform_field hK hU h hsle thr
  refine ⟨m1, m2, m3, g', hg', fun k t hk hkt => ?_⟩
  obtain ⟨bore, hst, -⟩ := segment_data hU h
  have hi := timeLong_increasing hpos hs hthr
  have e : responses K bs ns rs (timeLong time thr) = fun i j => (timeLong time thr).map (segmentResponse alpha bs ns rs i j) := by
    funext i j; exact responses_sampled hK hU h _ i j
  have hS : 0 < ∑ i, segmentLengths bs ns rs i := Finset.sum_pos (fun i _ => hst.len i) ⟨⟨0, segments_nonempty hU h⟩, Finset.mem_univ _⟩
  -- the first step
  have hstep : ∀ τ ts x, timeLong time thr = τ :: ts → ubwtStep (segmentLengths bs ns rs) (timeLong time thr) (responses K bs ns rs (timeLong time thr)) [] 0 = some x →
      0 < x.2 ∧ x.2 ≤ fieldResponse alpha bs τ := fun τ ts x htl hx => by
    rw [e, htl] at hx
    rw [htl] at hi
    obtain ⟨f1, f2⟩ := ubwt_first (segmentResponse alpha bs ns rs) hi hx
    obtain ⟨b1, b2⟩ := energy_bound (segments_nonempty hU h) hst.len (responses_definite ha hU h hsp hi.1) (segment_reciprocity hU h τ) f1 f2
    refine ⟨b1, ?_⟩
    have b3 := b2.trans_eq (segments_mean (alpha := alpha) hU h τ)
    exact le_of_mul_le_mul_right b3 hS
  by_cases ht : t ≤ thr
  · obtain ⟨x, hx, hv⟩ := m4 hsle ⟨k, t, hk, ht⟩
    have hp := (pLong_iff hsle thr k t hk).mpr ht
    have htl : timeLong time thr = thr :: time.drop (pLong time thr) := by unfold timeLong; rw [if_pos (by omega)]
    obtain ⟨c1, c2⟩ := hstep _ _ x htl hx
    have htp := hpos t (List.mem_of_getElem? hk)
    refine ⟨_, _, (hv k t hk ht).1, by rw [hv' k t hk, if_pos ht], by positivity, ?_⟩
    gcongr
  · have hk0 : k = 0 := hkt.resolve_right ht
    subst hk0
    cases time with
    | nil => simp at hk
    | cons t0 ts =>
      have ht0 : t0 = t := by simpa using hk
      subst ht0
      have hp : pLong (t0 :: ts) thr = 0 := by simp [pLong, ht]
      have htl : timeLong (t0 :: ts) thr = t0 :: ts := by unfold timeLong; rw [hp]; simp
      unfold ubwt at hout
      dsimp only at hout
      split at hout
      · simp at hout
      · rename_i l hl
        obtain ⟨e1, -⟩ := Prod.mk.inj (Option.some.inj hout)
        obtain ⟨hlen, hst'⟩ := ubwtLoop_spec hl
        obtain ⟨x, hx⟩ : ∃ x, l[0]? = some x := ⟨l[0]'(by rw [hlen, htl]; simp), List.getElem?_eq_getElem _⟩
        obtain ⟨c1, c2⟩ := hstep t0 ts x htl (by simpa using hst' 0 x hx)
        refine ⟨x.2, fieldResponse alpha bs t0, ?_, by rw [hv' 0 t0 rfl, if_neg ht], c1, c2⟩
        rw [← e1]
        unfold linearize
        rw [hp, if_neg (by omega), List.getElem?_map, hx]
        rfl

/-! ### A concrete case -/

theorem fieldA_spaced : Spaced (1 / 10) fieldA := by
  simp [Spaced, fieldA]

example : ∃ g Qs, temperatureDetailed lineKernel fieldA [2, 1] [[1 / 4, 3 / 4], [1]] [10 ^ 3, 10 ^ 6, 10 ^ 9] (10 ^ 4) = some (g, Qs) ∧ ∃ g',
    uniformDetailed lineKernel fieldA [2, 1] [[1 / 4, 3 / 4], [1]] [10 ^ 3, 10 ^ 6, 10 ^ 9] (10 ^ 4) = some g' ∧ ∃ v w, g[0]? = some v ∧ g'[0]? = some w ∧ 0 < v ∧ v ≤ w := by
  obtain ⟨⟨g, Qs⟩, ho⟩ := temperature_returns (alpha := 1 / 10 ^ 6) (K := lineKernel) (by norm_num) (fun _ _ _ => rfl) fieldA_upright fieldA_splits fieldA_spaced
    (time := [10 ^ 3, 10 ^ 6, 10 ^ 9]) (by simp) (by simp; norm_num) (thr := 10 ^ 4) (by norm_num)
  obtain ⟨-, -, -, g', hg', hv⟩ := temperature_first (alpha := 1 / 10 ^ 6) (K := lineKernel) (by norm_num) (fun _ _ _ => rfl) fieldA_upright fieldA_splits fieldA_spaced
    (time := [10 ^ 3, 10 ^ 6, 10 ^ 9]) (by simp) (by simp; norm_num) (thr := 10 ^ 4) (by norm_num) ho
  exact ⟨g, Qs, ho, g', hg', hv 0 (10 ^ 3) rfl (Or.inl rfl)⟩

/-- Fluid at the same temperature everywhere: the heat extraction rate of every segment is proportional to the difference of temperature. -/
example : ∃ out, mixedDetailed lineKernel fieldA [2, 1] [[1 / 4, 3 / 4], [1]] ⟨fun _ => -3, fun i j => if i = j then 3 else 0, 4, 1 / 10, 2, segmentLengths fieldA [2, 1] [[1 / 4, 3 / 4], [1]]⟩
    [10 ^ 3, 10 ^ 6, 10 ^ 9] (10 ^ 4) = some out := by
  refine mixed_returns (alpha := 1 / 10 ^ 6) (K := lineKernel) (by norm_num) (fun _ _ _ => rfl) fieldA_upright fieldA_splits fieldA_spaced (by simp) (by simp; norm_num) (by norm_num)
    ⟨fun i => by simp, fun θ => ?_, ⟨⟨0, segments_nonempty fieldA_upright fieldA_splits⟩, by norm_num⟩⟩ (by norm_num) rfl
  refine Finset.sum_nonneg fun i _ => ?_
  simp only [ite_mul, zero_mul, Finset.sum_ite_eq, Finset.mem_univ, if_true]
  nlinarith [mul_self_nonneg (θ i)]

end Verif.Gf
