import Verif.Gf.RefineProps

/-!
# More boreholes and the g-function with a uniform temperature

For a given total heat, the first temperature drop with a uniform temperature (and every one under the threshold for linearization) never increases when boreholes are added to the field or
made longer.  The temperature drop for a total heat `Q` is `Q / (2 π k L) g`, with `L` the total length.
-/

noncomputable section

namespace Verif.Gf

open Bore FLS Sol

theorem perm_lift {C L : List Borehole} (h : C.Perm L) (qs : List ℝ) (hq : qs.length = C.length) :
    ∃ qs' : List ℝ, qs'.length = L.length ∧ ∀ φ : Borehole → ℝ, (List.zipWith (fun s q => q * φ s) L qs').sum = (List.zipWith (fun s q => q * φ s) C qs).sum := by
  induction h generalizing qs with
  | nil => exact ⟨[], rfl, fun φ => by simp⟩
  | cons s _ ih =>
    cases qs with
    | nil => simp at hq
    | cons q qs =>
      obtain ⟨qs', h1, h2⟩ := ih qs (by simpa using hq)
      exact ⟨q :: qs', by simp [h1], fun φ => by simp [h2]⟩
  | swap s u l =>
    match qs, hq with
    | q :: p :: qs, hq => exact ⟨p :: q :: qs, by simpa using hq, fun φ => by simp; ring⟩
  | trans _ _ ih1 ih2 =>
    obtain ⟨qs', h1, h2⟩ := ih1 qs hq
    obtain ⟨qs'', h3, h4⟩ := ih2 qs' h1
    exact ⟨qs'', h3, fun φ => (h4 φ).trans (h2 φ)⟩

theorem sublist_lift {C L : List Borehole} (h : C.Sublist L) (qs : List ℝ) (hq : qs.length = C.length) :
    ∃ qs' : List ℝ, qs'.length = L.length ∧ ∀ φ : Borehole → ℝ, (List.zipWith (fun s q => q * φ s) L qs').sum = (List.zipWith (fun s q => q * φ s) C qs).sum := by
  induction h generalizing qs with
  | slnil => exact ⟨[], rfl, fun φ => by simp⟩
  | cons s _ ih =>
    obtain ⟨qs', h1, h2⟩ := ih qs hq
    exact ⟨0 :: qs', by simp [h1], fun φ => by simp [h2]⟩
  | cons_cons s _ ih =>
    cases qs with
    | nil => simp at hq
    | cons q qs =>
      obtain ⟨qs', h1, h2⟩ := ih qs (by simpa using hq)
      exact ⟨q :: qs', by simp [h1], fun φ => by simp [h2]⟩

/-- Rates of some of the segments are rates of all of them, zero for the others. -/
theorem subperm_lift {C L : List Borehole} (h : C.Subperm L) (Q : Fin C.length → ℝ) : ∃ P : Fin L.length → ℝ, ∀ φ : Borehole → ℝ, ∑ i, P i * φ L[i] = ∑ i, Q i * φ C[i] := by
  obtain ⟨M, h1, h2⟩ := h
  obtain ⟨qs, e1, e2⟩ := perm_lift h1.symm (List.ofFn Q) (by simp)
  obtain ⟨qs', e3, e4⟩ := sublist_lift h2 qs e1
  refine ⟨fun i => qs'[i.val]'(by omega), fun φ => ?_⟩
  have a := zipWith_fin e3 φ
  have b := zipWith_fin (L := C) (qs := List.ofFn Q) (by simp) φ
  rw [← a, e4, e2, b]
  simp

variable {alpha rb thr : ℝ} {bs bs' : List Borehole} {ns ns' : List ℕ} {rs rs' : List (List ℝ)} {time : List ℝ} {K : ℝ → Bool → Borehole → Borehole → ℝ}

/-- The segments of a field are among those of another one. -/
theorem segments_added (ha : 0 < alpha) (hK : ∀ t s r, K t true s r = fls t alpha (pairOf s r) true true) (hU : Upright rb bs) (hU' : Upright rb bs') (hsp' : Spaced rb bs')
    (h : Splits bs ns rs) (h' : Splits bs' ns' rs') (hsub : (segmentList bs ns rs).Subperm (segmentList bs' ns' rs'))
    (hpos : ∀ t ∈ time, 0 < t) (hs : time.Pairwise (· < ·)) (hthr : 0 < thr)
    {g : List ℝ} {Qs : List (Fin (segmentList bs ns rs).length → ℝ)} (hout : temperatureDetailed K bs ns rs time thr = some (g, Qs))
    {g' : List ℝ} {Qs' : List (Fin (segmentList bs' ns' rs').length → ℝ)} (hout' : temperatureDetailed K bs' ns' rs' time thr = some (g', Qs'))
    {k : ℕ} {t : ℝ} (hk : time[k]? = some t) (hkt : k = 0 ∨ t ≤ thr) :
    ∃ v v', g[k]? = some v ∧ g'[k]? = some v' ∧ v' / (bs'.map Borehole.H).sum ≤ v / (bs.map Borehole.H).sum := by
  obtain ⟨T, Q, hg, hT, hQ⟩ := first_value hK hU h hpos hs hthr hout hk hkt
  obtain ⟨T', Q', hg', hT', hQ'⟩ := first_value hK hU' h' hpos hs hthr hout' hk hkt
  have htp := hpos t (List.mem_of_getElem? hk)
  obtain ⟨τ, hτ⟩ : ∃ τ, τ = if t ≤ thr then thr else t := ⟨_, rfl⟩
  rw [← hτ] at hT hT'
  have hτ0 : 0 < τ := by rw [hτ]; split_ifs <;> assumption
  have a1 : ∀ {bs : List Borehole} {ns : List ℕ} {rs : List (List ℝ)}, Splits bs ns rs → ∑ i, segmentLengths bs ns rs i = (bs.map Borehole.H).sum := fun {bs ns rs} h => by
    rw [← segmentList_H h]
    exact Fin.sum_univ_fun_getElem _ Borehole.H
  have a2 : ∀ {bs : List Borehole} {ns : List ℕ} {rs : List (List ℝ)}, Upright rb bs → Splits bs ns rs → 0 < ∑ i, segmentLengths bs ns rs i := fun {bs ns rs} hU h => by
    obtain ⟨bore, hst, -⟩ := segment_data hU h
    exact Finset.sum_pos (fun i _ => hst.len i) ⟨⟨0, segments_nonempty hU h⟩, Finset.mem_univ _⟩
  have hS := a2 hU h
  have hS' := a2 hU' h'
  obtain ⟨S, hSd⟩ : ∃ S, S = ∑ i, segmentLengths bs ns rs i := ⟨_, rfl⟩
  obtain ⟨S', hSd'⟩ : ∃ S', S' = ∑ i, segmentLengths bs' ns' rs' i := ⟨_, rfl⟩
  obtain ⟨P, hP⟩ := subperm_lift hsub fun i => S' / S * Q i
  have hQ1 : ∑ i, segmentLengths bs ns rs i * Q i = S := hQ.trans hSd.symm
  have hQ2 : ∑ i, segmentLengths bs' ns' rs' i * Q' i = S' := hQ'.trans hSd'.symm
  rw [← hSd] at hS
  rw [← hSd'] at hS'
  have hP' : ∑ i, segmentLengths bs' ns' rs' i * P i = S' := by
    have := hP Borehole.H
    have e : ∑ i : Fin (segmentList bs ns rs).length, S' / S * Q i * (segmentList bs ns rs)[i].H = S' / S * ∑ i, segmentLengths bs ns rs i * Q i := by
      rw [Finset.mul_sum]
      exact Finset.sum_congr rfl fun i _ => by unfold segmentLengths; ring
    rw [e, hQ1, div_mul_cancel₀ _ hS.ne'] at this
    rw [← this]
    exact Finset.sum_congr rfl fun i _ => mul_comm _ _
  have hleast := energy_least (H := segmentLengths bs' ns' rs') (F := fun i j => segmentResponse alpha bs' ns' rs' i j τ) (responses_definite ha hU' h' hsp' hτ0)
    (segment_reciprocity hU' h' τ) hT' (P := P) (by rw [hP', hQ2])
  have hE : ∑ i, segmentLengths bs' ns' rs' i * P i * ∑ j, segmentResponse alpha bs' ns' rs' i j τ * P j = (S' / S) ^ 2 * (T * S) := by
    have e1 : ∀ c : Borehole, ∑ j : Fin (segmentList bs' ns' rs').length, P j * fls τ alpha (pairOf (segmentList bs' ns' rs')[j] c) true true =
        ∑ j : Fin (segmentList bs ns rs).length, S' / S * Q j * fls τ alpha (pairOf (segmentList bs ns rs)[j] c) true true := fun c => hP fun b => fls τ alpha (pairOf b c) true true
    have e2 := hP fun c => c.H * ∑ j : Fin (segmentList bs ns rs).length, S' / S * Q j * fls τ alpha (pairOf (segmentList bs ns rs)[j] c) true true
    have e3 : ∀ i : Fin (segmentList bs ns rs).length, ∑ j : Fin (segmentList bs ns rs).length, S' / S * Q j * fls τ alpha (pairOf (segmentList bs ns rs)[j] (segmentList bs ns rs)[i]) true true = S' / S * T := fun i => by
      rw [hT i, Finset.mul_sum]
      exact Finset.sum_congr rfl fun j _ => by unfold segmentResponse; ring
    have e4 : ∑ i, segmentLengths bs' ns' rs' i * P i * ∑ j, segmentResponse alpha bs' ns' rs' i j τ * P j = ∑ i : Fin (segmentList bs' ns' rs').length, P i * ((segmentList bs' ns' rs')[i].H *
        ∑ j : Fin (segmentList bs ns rs).length, S' / S * Q j * fls τ alpha (pairOf (segmentList bs ns rs)[j] (segmentList bs' ns' rs')[i]) true true) := by
      refine Finset.sum_congr rfl fun i _ => ?_
      rw [← e1, mul_comm (segmentLengths bs' ns' rs' i) (P i), mul_assoc]
      refine congrArg (fun x => P i * (_ * x)) (Finset.sum_congr rfl fun j _ => mul_comm _ _)
    rw [e4]
    refine e2.trans ?_
    simp only [e3]
    rw [← hQ1, Finset.mul_sum, Finset.mul_sum]
    refine Finset.sum_congr rfl fun i _ => ?_
    rw [hQ1]
    unfold segmentLengths
    ring
  rw [hE, hQ2] at hleast
  have hle : T' / S' ≤ T / S := by
    rw [div_le_div_iff₀ hS' hS]
    have : T' * S' ≤ S' ^ 2 * T / S := hleast.trans_eq (by field_simp)
    rw [le_div_iff₀ hS] at this
    nlinarith
  refine ⟨_, _, hg, hg', ?_⟩
  rw [← a1 h, ← a1 h', ← hSd, ← hSd']
  split_ifs
  · have : ∀ x y : ℝ, x * t / thr / y = x / y * (t / thr) := fun x y => by ring
    rw [this, this]
    exact mul_le_mul_of_nonneg_right hle (div_pos htp hthr).le
  · exact hle

/-! ### Boreholes with the ratios of their segments -/

/-- The g-function with a uniform temperature of boreholes given with the ratios of their segments. -/
def fieldTemperature (K : ℝ → Bool → Borehole → Borehole → ℝ) (zs : List (Borehole × List ℝ)) (time : List ℝ) (thr : ℝ) : Option (List ℝ) :=
  (temperatureDetailed K (zs.map Prod.fst) ((zs.map Prod.snd).map List.length) (zs.map Prod.snd) time thr).map Prod.fst

/-- Total length. -/
def totalLength (zs : List (Borehole × List ℝ)) : ℝ := (zs.map fun z => z.1.H).sum

/-- Specification: vertical boreholes of one radius, with positive ratios of sum one. -/
structure Sound (rb : ℝ) (zs : List (Borehole × List ℝ)) : Prop where
  ne : zs ≠ []
  rb_pos : 0 < rb
  bore : ∀ z ∈ zs, z.1.tilt = 0 ∧ z.1.rb = rb ∧ 0 < z.1.H ∧ 0 ≤ z.1.D
  ratio : ∀ z ∈ zs, (∀ ρ ∈ z.2, 0 < ρ) ∧ z.2.sum = 1

theorem Sound.upright {zs : List (Borehole × List ℝ)} (h : Sound rb zs) : Upright rb (zs.map Prod.fst) := by
  have key : ∀ b ∈ zs.map Prod.fst, b.tilt = 0 ∧ b.rb = rb ∧ 0 < b.H ∧ 0 ≤ b.D := fun b hb => by
    obtain ⟨z, hz, rfl⟩ := List.mem_map.mp hb
    exact h.bore z hz
  exact ⟨by simpa using h.ne, fun b hb => (key b hb).1, h.rb_pos, fun b hb => (key b hb).2.1, fun b hb => (key b hb).2.2.1, fun b hb => (key b hb).2.2.2⟩

theorem Sound.splits {zs : List (Borehole × List ℝ)} (h : Sound rb zs) : Splits (zs.map Prod.fst) ((zs.map Prod.snd).map List.length) (zs.map Prod.snd) := by
  refine ⟨⟨by simp, rfl⟩, fun r hr => ?_, fun r hr => ?_⟩ <;>
  · obtain ⟨z, hz, rfl⟩ := List.mem_map.mp hr
    first | exact (h.ratio z hz).1 | exact (h.ratio z hz).2

theorem segmentList_pairs (zs : List (Borehole × List ℝ)) :
    segmentList (zs.map Prod.fst) ((zs.map Prod.snd).map List.length) (zs.map Prod.snd) = zs.flatMap fun z => z.1.segments z.2 := by
  unfold segmentList
  induction zs with
  | nil => rfl
  | cons z zs ih => simp only [List.map_cons, List.zip_cons_cons, List.flatMap_cons, ih]

theorem field_added (ha : 0 < alpha) (hK : ∀ t s r, K t true s r = fls t alpha (pairOf s r) true true) {zs zs' : List (Borehole × List ℝ)} (hz : Sound rb zs) (hz' : Sound rb zs')
    (hsp : Spaced rb (zs.map Prod.fst)) (hsp' : Spaced rb (zs'.map Prod.fst)) (hsub : (zs.flatMap fun z => z.1.segments z.2).Subperm (zs'.flatMap fun z => z.1.segments z.2))
    (hpos : ∀ t ∈ time, 0 < t) (hs : time.Pairwise (· < ·)) (hthr : 0 < thr) {k : ℕ} {t : ℝ} (hk : time[k]? = some t) (hkt : k = 0 ∨ t ≤ thr) :
    ∃ g g' v v', fieldTemperature K zs time thr = some g ∧ fieldTemperature K zs' time thr = some g' ∧ g[k]? = some v ∧ g'[k]? = some v' ∧ 0 < v' ∧
      v' / totalLength zs' ≤ v / totalLength zs := by
  obtain ⟨⟨g, Qs⟩, ho⟩ := temperature_returns ha hK hz.upright hz.splits hsp hpos hs hthr
  obtain ⟨⟨g', Qs'⟩, ho'⟩ := temperature_returns ha hK hz'.upright hz'.splits hsp' hpos hs hthr
  obtain ⟨v, v', h1, h2, h3⟩ := segments_added ha hK hz.upright hz'.upright hsp' hz.splits hz'.splits (by rw [segmentList_pairs, segmentList_pairs]; exact hsub) hpos hs hthr ho ho' hk hkt
  obtain ⟨-, -, -, g0, -, hv⟩ := temperature_first ha hK hz'.upright hz'.splits hsp' hpos hs hthr ho'
  obtain ⟨w, -, e, -, hw, -⟩ := hv k t hk hkt
  rw [h2] at e
  refine ⟨g, g', v, v', by rw [fieldTemperature, ho]; rfl, by rw [fieldTemperature, ho']; rfl, h1, h2, by rw [Option.some.inj e]; exact hw, ?_⟩
  simpa [totalLength, List.map_map, Function.comp_def] using h3

/-- **C125.**  Adding boreholes to a field, anywhere and in any order, never increases the temperature drop for a given total heat at the first time, nor at the times under the threshold. -/
theorem boreholes_added (ha : 0 < alpha) (hK : ∀ t s r, K t true s r = fls t alpha (pairOf s r) true true) {zs zs' : List (Borehole × List ℝ)} (hne : zs ≠ []) (hz' : Sound rb zs')
    (hsp' : Spaced rb (zs'.map Prod.fst)) (hsub : zs.Subperm zs') (hpos : ∀ t ∈ time, 0 < t) (hs : time.Pairwise (· < ·)) (hthr : 0 < thr)
    {k : ℕ} {t : ℝ} (hk : time[k]? = some t) (hkt : k = 0 ∨ t ≤ thr) :
    ∃ g g' v v', fieldTemperature K zs time thr = some g ∧ fieldTemperature K zs' time thr = some g' ∧ g[k]? = some v ∧ g'[k]? = some v' ∧ 0 < v' ∧
      v' / totalLength zs' ≤ v / totalLength zs := by
  obtain ⟨l, h1, h2⟩ := id hsub
  refine field_added ha hK ⟨hne, hz'.rb_pos, fun z hz => hz'.bore z (hsub.subset hz), fun z hz => hz'.ratio z (hsub.subset hz)⟩ hz' ?_ hsp' ?_ hpos hs hthr hk hkt
  · refine List.Perm.pairwise (h1.map Prod.fst) (List.Pairwise.sublist (h2.map Prod.fst) hsp') ?_
    intro b c h
    refine h.trans_eq ?_
    ring
  · exact ⟨l.flatMap fun z => z.1.segments z.2, h1.flatMap fun _ _ => .refl _, h2.flatMap _⟩

/-- **C125.**  The g-function of `N` boreholes of the same length is at the first time at most `N` times that of any one of them. -/
theorem field_single (ha : 0 < alpha) (hK : ∀ t s r, K t true s r = fls t alpha (pairOf s r) true true) {zs : List (Borehole × List ℝ)} (hz : Sound rb zs) (hsp : Spaced rb (zs.map Prod.fst))
    {z : Borehole × List ℝ} (hm : z ∈ zs) (hH : ∀ y ∈ zs, y.1.H = z.1.H) (hpos : ∀ t ∈ time, 0 < t) (hs : time.Pairwise (· < ·)) (hthr : 0 < thr)
    {k : ℕ} {t : ℝ} (hk : time[k]? = some t) (hkt : k = 0 ∨ t ≤ thr) :
    ∃ g g' v v', fieldTemperature K [z] time thr = some g ∧ fieldTemperature K zs time thr = some g' ∧ g[k]? = some v ∧ g'[k]? = some v' ∧ v' ≤ zs.length * v := by
  obtain ⟨g, g', v, v', h1, h2, h3, h4, -, h5⟩ := boreholes_added ha hK (zs := [z]) (by simp) hz hsp (List.singleton_subperm_iff.mpr hm) hpos hs hthr hk hkt
  refine ⟨g, g', v, v', h1, h2, h3, h4, ?_⟩
  have hH0 : 0 < z.1.H := (hz.bore z hm).2.2.1
  have hN : 0 < (zs.length : ℝ) := by exact_mod_cast List.length_pos_of_mem hm
  have e : totalLength zs = zs.length * z.1.H := by
    unfold totalLength
    rw [List.eq_replicate_of_mem (a := z.1.H) (l := zs.map fun z => z.1.H) fun x hx => by
      obtain ⟨y, hy, rfl⟩ := List.mem_map.mp hx
      exact hH y hy, List.sum_replicate, List.length_map, nsmul_eq_mul]
  rw [e, show totalLength [z] = z.1.H by simp [totalLength], div_le_div_iff₀ (mul_pos hN hH0) hH0] at h5
  nlinarith

/-! ### Longer boreholes -/

/-- A borehole of `n` equal segments, and the one with `k` more segments of the same length. -/
def longer (b : Borehole) (n k : ℕ) : Borehole := { b with H := b.H * ((n + k : ℕ) / n : ℝ) }

theorem segsFrom_same {b c : Borehole} (hD : b.D = c.D) (hrb : b.rb = c.rb) (hx : b.x = c.x) (hy : b.y = c.y) (ht : b.tilt = c.tilt) (ho : b.orientation = c.orientation) {ρ σ : ℝ} (h : ρ * b.H = σ * c.H) (n : ℕ)
    {a d : ℝ} (ha : a * b.H = d * c.H) : segsFrom b a (List.replicate n ρ) = segsFrom c d (List.replicate n σ) := by
  induction n generalizing a d with
  | zero => rfl
  | succ n ih =>
    rw [List.replicate_succ, List.replicate_succ, segsFrom, segsFrom, ih (a := a + ρ) (d := d + σ) (by rw [add_mul, add_mul, ha, h])]
    congr 1
    unfold Borehole.segmentAt
    rw [ha, h, hD, hrb, hx, hy, ht, ho]

theorem longer_segments (b : Borehole) {n : ℕ} (hn : 0 < n) (k : ℕ) : (b.segments (uniformRatios n)).Sublist ((longer b n k).segments (uniformRatios (n + k))) := by
  have hn' : (n : ℝ) ≠ 0 := by exact_mod_cast hn.ne'
  have hk' : (n + k : ℝ) ≠ 0 := by exact_mod_cast (by omega : n + k ≠ 0)
  rw [segments_eq, segments_eq]
  unfold uniformRatios
  rw [List.replicate_add, segsFrom_append, segsFrom_same (b := b) (ρ := 1 / (n : ℝ)) (a := 0) (c := longer b n k) rfl rfl rfl rfl rfl rfl (σ := 1 / ((n + k : ℕ) : ℝ)) (by
    simp only [longer]
    push_cast
    field_simp) n (d := 0) (by simp)]
  exact List.sublist_append_left _ _

/-- **C125.**  Making boreholes longer (by whole segments, some or all of them) never increases the temperature drop for a given total heat at the first time, nor at the times under the threshold. -/
theorem boreholes_longer (ha : 0 < alpha) (hK : ∀ t s r, K t true s r = fls t alpha (pairOf s r) true true) {ys : List (Borehole × ℕ × ℕ)} (hU : Upright rb (ys.map Prod.fst))
    (hsp : Spaced rb (ys.map Prod.fst)) (hn : ∀ y ∈ ys, 0 < y.2.1) (hpos : ∀ t ∈ time, 0 < t) (hs : time.Pairwise (· < ·)) (hthr : 0 < thr)
    {k : ℕ} {t : ℝ} (hk : time[k]? = some t) (hkt : k = 0 ∨ t ≤ thr) :
    ∃ g g' v v', fieldTemperature K (ys.map fun y => (y.1, uniformRatios y.2.1)) time thr = some g ∧
      fieldTemperature K (ys.map fun y => (longer y.1 y.2.1 y.2.2, uniformRatios (y.2.1 + y.2.2))) time thr = some g' ∧ g[k]? = some v ∧ g'[k]? = some v' ∧ 0 < v' ∧
      v' / (ys.map fun y => y.1.H * (1 + (y.2.2 : ℝ) / y.2.1)).sum ≤ v / (ys.map fun y => y.1.H).sum := by
  have hb : ∀ y ∈ ys, y.1.tilt = 0 ∧ y.1.rb = rb ∧ 0 < y.1.H ∧ 0 ≤ y.1.D := fun y hy => by
    have : y.1 ∈ ys.map Prod.fst := List.mem_map_of_mem hy
    exact ⟨hU.tilt _ this, hU.rb _ this, hU.H _ this, hU.D _ this⟩
  have hr : ∀ n, 0 < n → (∀ ρ ∈ uniformRatios n, 0 < ρ) ∧ (uniformRatios n).sum = 1 := fun n hn => by
    have h := uniform_splits [⟨0, 0, 0, 0, 0, 0, 0⟩] hn
    exact ⟨h.pos _ (by simp), h.sum _ (by simp)⟩
  have hne : ys ≠ [] := by simpa using hU.ne
  have hl : ∀ y ∈ ys, (longer y.1 y.2.1 y.2.2).H = y.1.H * (1 + (y.2.2 : ℝ) / y.2.1) := fun y hy => by
    have : (y.2.1 : ℝ) ≠ 0 := by exact_mod_cast (hn y hy).ne'
    simp only [longer]
    push_cast
    field_simp
  have key := field_added ha hK (zs := ys.map fun y => (y.1, uniformRatios y.2.1)) (zs' := ys.map fun y => (longer y.1 y.2.1 y.2.2, uniformRatios (y.2.1 + y.2.2))) (rb := rb)
    ⟨by simpa using hne, hU.rb_pos, fun z hz => by
      obtain ⟨y, hy, rfl⟩ := List.mem_map.mp hz
      exact hb y hy, fun z hz => by
      obtain ⟨y, hy, rfl⟩ := List.mem_map.mp hz
      exact hr _ (hn y hy)⟩
    ⟨by simpa using hne, hU.rb_pos, fun z hz => by
      obtain ⟨y, hy, rfl⟩ := List.mem_map.mp hz
      obtain ⟨h1, h2, h3, h4⟩ := hb y hy
      exact ⟨h1, h2, by rw [hl y hy]; positivity, h4⟩, fun z hz => by
      obtain ⟨y, hy, rfl⟩ := List.mem_map.mp hz
      exact hr _ (by have := hn y hy; omega)⟩
    (by rw [List.map_map]; exact hsp)
    (by
      unfold Spaced at hsp ⊢
      rw [List.map_map, List.pairwise_map]
      rw [List.pairwise_map] at hsp
      exact hsp)
    (by
      refine List.Sublist.subperm ?_
      rw [List.flatMap_map, List.flatMap_map]
      exact List.Sublist.flatMap_right _ fun y hy => longer_segments y.1 (hn y hy) _) hpos hs hthr hk hkt
  obtain ⟨g, g', v, v', h1, h2, h3, h4, h5, h6⟩ := key
  refine ⟨g, g', v, v', h1, h2, h3, h4, h5, ?_⟩
  unfold totalLength at h6
  rw [List.map_map, List.map_map] at h6
  rw [List.map_congr_left (g := fun y : Borehole × ℕ × ℕ => (longer y.1 y.2.1 y.2.2).H) fun y hy => (hl y hy).symm]
  exact h6

/-- A third borehole added to two, in front of them. -/
example : ∃ g g' v v', fieldTemperature lineKernel [(⟨100, 4, 1 / 10, 0, 0, 0, 0⟩, [1 / 4, 3 / 4]), (⟨150, 2, 1 / 10, 5, 0, 0, 0⟩, [1])] [10 ^ 3, 10 ^ 6] (10 ^ 4) = some g ∧
    fieldTemperature lineKernel [(⟨80, 1, 1 / 10, 0, 7, 0, 0⟩, [1 / 2, 1 / 2]), (⟨100, 4, 1 / 10, 0, 0, 0, 0⟩, [1 / 4, 3 / 4]), (⟨150, 2, 1 / 10, 5, 0, 0, 0⟩, [1])] [10 ^ 3, 10 ^ 6] (10 ^ 4) = some g' ∧
    g[0]? = some v ∧ g'[0]? = some v' ∧ v' / 330 ≤ v / 250 := by
  obtain ⟨g, g', v, v', h1, h2, h3, h4, -, h5⟩ := boreholes_added (alpha := 1 / 10 ^ 6) (K := lineKernel) (rb := 1 / 10) (by norm_num) (fun _ _ _ => rfl)
    (zs := [(⟨100, 4, 1 / 10, 0, 0, 0, 0⟩, [1 / 4, 3 / 4]), (⟨150, 2, 1 / 10, 5, 0, 0, 0⟩, [1])])
    (zs' := [(⟨80, 1, 1 / 10, 0, 7, 0, 0⟩, [1 / 2, 1 / 2]), (⟨100, 4, 1 / 10, 0, 0, 0, 0⟩, [1 / 4, 3 / 4]), (⟨150, 2, 1 / 10, 5, 0, 0, 0⟩, [1])]) (by simp)
    ⟨by simp, by norm_num, by simp, by norm_num⟩ (by unfold Spaced; norm_num) (List.sublist_cons_self _ _).subperm (time := [10 ^ 3, 10 ^ 6]) (by norm_num) (by norm_num) (thr := 10 ^ 4) (by norm_num)
    (k := 0) rfl (.inl rfl)
  refine ⟨g, g', v, v', h1, h2, h3, h4, ?_⟩
  norm_num [totalLength] at h5
  exact h5

/-- Two equal boreholes of two segments: at most twice the value of the first one. -/
example : ∃ g g' v v', fieldTemperature lineKernel [(⟨100, 4, 1 / 10, 0, 0, 0, 0⟩, [1 / 4, 3 / 4])] [10 ^ 3, 10 ^ 6] (10 ^ 4) = some g ∧
    fieldTemperature lineKernel [(⟨100, 4, 1 / 10, 0, 0, 0, 0⟩, [1 / 4, 3 / 4]), (⟨100, 2, 1 / 10, 5, 0, 0, 0⟩, [1])] [10 ^ 3, 10 ^ 6] (10 ^ 4) = some g' ∧
    g[0]? = some v ∧ g'[0]? = some v' ∧ v' ≤ 2 * v := by
  have := field_single (alpha := 1 / 10 ^ 6) (K := lineKernel) (rb := 1 / 10) (by norm_num) (fun _ _ _ => rfl)
    (zs := [(⟨100, 4, 1 / 10, 0, 0, 0, 0⟩, [1 / 4, 3 / 4]), (⟨100, 2, 1 / 10, 5, 0, 0, 0⟩, [1])])
    ⟨by simp, by norm_num, by simp, by norm_num⟩ (by unfold Spaced; norm_num) (z := (⟨100, 4, 1 / 10, 0, 0, 0, 0⟩, [1 / 4, 3 / 4])) (by simp) (by simp) (time := [10 ^ 3, 10 ^ 6])
    (by norm_num) (by norm_num) (thr := 10 ^ 4) (by norm_num) (k := 0) rfl (.inl rfl)
  simpa using this

/-- Two boreholes, one of them made half longer. -/
example : ∃ g g' v v', fieldTemperature lineKernel [(⟨100, 4, 1 / 10, 0, 0, 0, 0⟩, uniformRatios 2), (⟨100, 2, 1 / 10, 5, 0, 0, 0⟩, uniformRatios 3)] [10 ^ 3, 10 ^ 6] (10 ^ 4) = some g ∧
    fieldTemperature lineKernel [(longer ⟨100, 4, 1 / 10, 0, 0, 0, 0⟩ 2 1, uniformRatios 3), (longer ⟨100, 2, 1 / 10, 5, 0, 0, 0⟩ 3 0, uniformRatios 3)] [10 ^ 3, 10 ^ 6] (10 ^ 4) = some g' ∧
    g[0]? = some v ∧ g'[0]? = some v' ∧ v' / 250 ≤ v / 200 := by
  obtain ⟨g, g', v, v', h1, h2, h3, h4, -, h5⟩ := boreholes_longer (alpha := 1 / 10 ^ 6) (K := lineKernel) (rb := 1 / 10) (by norm_num) (fun _ _ _ => rfl)
    (ys := [(⟨100, 4, 1 / 10, 0, 0, 0, 0⟩, 2, 1), (⟨100, 2, 1 / 10, 5, 0, 0, 0⟩, 3, 0)]) ⟨by simp, by simp, by norm_num, by simp, by simp, by simp⟩ (by unfold Spaced; norm_num) (by simp)
    (time := [10 ^ 3, 10 ^ 6]) (by norm_num) (by norm_num) (thr := 10 ^ 4) (by norm_num) (k := 0) rfl (.inl rfl)
  refine ⟨g, g', v, v', h1, h2, h3, h4, ?_⟩
  norm_num at h5
  exact h5

end Verif.Gf
