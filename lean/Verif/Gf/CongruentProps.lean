import Verif.Gf.GroupLemmas

/-!
# Congruent fields, order of the boreholes, symmetries: uniform temperature and mixed inlet temperature
-/

noncomputable section

namespace Verif.Gf

open Bore FLS Sol Finset

variable {S S' : Sim} {γ : ℕ → ℕ} {rb alpha : ℝ} {K : ℝ → Bool → Borehole → Borehole → ℝ}

/-- Two fields are congruent: the borehole `γ k` of the second has the dimensions and the segments of the borehole `k` of the first, and all distances are the same. -/
structure Congruent (S S' : Sim) (γ : ℕ → ℕ) : Prop where
  size : S'.N = S.N
  maps : ∀ k < S.N, γ k < S.N
  inj : ∀ k < S.N, ∀ l < S.N, γ k = γ l → k = l
  tilt : ∀ k < S.N, (S'.bore (γ k)).tilt = (S.bore k).tilt
  H : ∀ k < S.N, (S'.bore (γ k)).H = (S.bore k).H
  D : ∀ k < S.N, (S'.bore (γ k)).D = (S.bore k).D
  rb : ∀ k < S.N, (S'.bore (γ k)).rb = (S.bore k).rb
  ns : ∀ k < S.N, S'.ns (γ k) = S.ns k
  rs : ∀ k < S.N, S'.rs (γ k) = S.rs k
  dist : ∀ k < S.N, ∀ l < S.N, ((S'.bore (γ k)).x - (S'.bore (γ l)).x) ^ 2 + ((S'.bore (γ k)).y - (S'.bore (γ l)).y) ^ 2 =
    ((S.bore k).x - (S.bore l).x) ^ 2 + ((S.bore k).y - (S.bore l).y) ^ 2

theorem Congruent.surj (h : Congruent S S' γ) {d : ℕ} (hd : d < S.N) : ∃ k < S.N, γ k = d := by
  have hi : Function.Injective fun k : Fin S.N => (⟨γ k, h.maps k k.isLt⟩ : Fin S.N) := fun k l e => Fin.ext (h.inj k k.isLt l l.isLt (congrArg Fin.val e))
  obtain ⟨k, hk⟩ := Finite.injective_iff_surjective.mp hi ⟨d, hd⟩
  exact ⟨k, k.isLt, congrArg Fin.val hk⟩

theorem Congruent.fit (h : Congruent S S' γ) (hf : Fit S rb) : Fit S' rb := by
  have hs : ∀ d < S'.N, ∃ k < S.N, γ k = d := fun d hd => h.surj (h.size ▸ hd)
  refine ⟨h.size ▸ hf.size, fun d hd => ?_, ⟨hf.rad.1, fun d hd => ?_⟩, fun d hd => ?_, fun d hd => ?_, fun d hd => ?_, fun d hd => ?_, fun d hd => ?_⟩
  all_goals obtain ⟨k, hk, rfl⟩ := hs d hd
  · rw [h.tilt k hk, hf.tilt k hk]
  · rw [h.rb k hk, hf.rad.2 k hk]
  · rw [h.H k hk]; exact hf.H k hk
  · rw [h.D k hk]; exact hf.D k hk
  · rw [h.rs k hk, h.ns k hk, hf.len k hk]
  · rw [h.rs k hk]; exact hf.pos k hk
  · rw [h.rs k hk, hf.sum k hk]

theorem spaced_iff (S : Sim) (rb : ℝ) : Spaced rb (bores S) ↔ ∀ k < S.N, ∀ l < S.N, k ≠ l → (10 * rb) ^ 2 ≤ ((S.bore k).x - (S.bore l).x) ^ 2 + ((S.bore k).y - (S.bore l).y) ^ 2 := by
  unfold Spaced
  rw [List.pairwise_iff_getElem]
  simp only [List.length_map, List.length_range, List.getElem_map, List.getElem_range]
  constructor
  · intro h k hk l hl hkl
    rcases lt_or_gt_of_ne hkl with h1 | h1
    · exact h k l hk hl h1
    · refine (h l k hl hk h1).trans_eq ?_
      ring
  · exact fun h k l hk hl hkl => h k hk l hl (ne_of_lt hkl)

theorem Congruent.spaced (h : Congruent S S' γ) (hsp : Spaced rb (bores S)) : Spaced rb (bores S') := by
  rw [spaced_iff] at hsp ⊢
  intro d hd e he hde
  obtain ⟨k, hk, rfl⟩ := h.surj (d := d) (h.size ▸ hd)
  obtain ⟨l, hl, rfl⟩ := h.surj (d := e) (h.size ▸ he)
  rw [h.dist k hk l hl]
  exact hsp k hk l hl fun e => hde (by rw [e])

/-- The dimensions of a segment of a vertical borehole. -/
theorem Fit.seg_data (hf : Fit S rb) {k a : ℕ} (hk : k < S.N) (ha : a < S.ns k) :
    (S.seg k a).H = (S.rs k).getD a 0 * (S.bore k).H ∧ (S.seg k a).D = (S.bore k).D + ((S.rs k).take a).sum * (S.bore k).H ∧ (S.seg k a).x = (S.bore k).x ∧
      (S.seg k a).y = (S.bore k).y ∧ (S.seg k a).rb = (S.bore k).rb := by
  have h := S.seg_mem (k := k) (a := a) (by rw [hf.len k hk]; exact ha)
  rw [segments_eq] at h
  obtain ⟨ρ, q1, q2, q3, q4, q5, q6⟩ := segsFrom_get (hf.tilt k hk) _ 0 a _ h
  rw [List.getD_eq_getElem?_getD, q1]
  exact ⟨q2, by rw [q3, zero_add], q4, q5, q6⟩

theorem Congruent.pair (h : Congruent S S' γ) (hf : Fit S rb) {k l a b : ℕ} (hk : k < S.N) (hl : l < S.N) (ha : a < S.ns k) (hb : b < S.ns l) :
    pairOf (S'.seg (γ k) a) (S'.seg (γ l) b) = pairOf (S.seg k a) (S.seg l b) := by
  have hf' := h.fit hf
  obtain ⟨a1, a2, a3, a4, a5⟩ := hf.seg_data hk ha
  obtain ⟨b1, b2, b3, b4, b5⟩ := hf.seg_data hl hb
  obtain ⟨c1, c2, c3, c4, c5⟩ := hf'.seg_data (k := γ k) (a := a) (h.size ▸ h.maps k hk) (by rw [h.ns k hk]; exact ha)
  obtain ⟨d1, d2, d3, d4, d5⟩ := hf'.seg_data (k := γ l) (a := b) (h.size ▸ h.maps l hl) (by rw [h.ns l hl]; exact hb)
  simp only [pairOf, Borehole.distance, a1, a2, a3, a4, a5, b1, b2, b3, b4, c1, c2, c3, c4, c5, d1, d2, d3, d4, h.H k hk, h.H l hl, h.D k hk, h.D l hl, h.rb k hk,
    h.rs k hk, h.rs l hl, h.dist k hk l hl]

theorem Congruent.seg_H (h : Congruent S S' γ) (hf : Fit S rb) {k a : ℕ} (hk : k < S.N) (ha : a < S.ns k) : (S'.seg (γ k) a).H = (S.seg k a).H := by
  have := congrArg Pair.H1 (h.pair hf hk hk ha ha)
  exact this

theorem Congruent.single (h : Congruent S S' γ) {k : ℕ} (hk : k < S.N) (φ : ℕ → ℝ) : ∑ l ∈ range S.N with γ l = γ k, φ l = φ k := by
  rw [Finset.sum_eq_single_of_mem k (by simp [hk])]
  intro l hl hne
  obtain ⟨h1, h2⟩ := Finset.mem_filter.mp hl
  exact absurd (h.inj l (Finset.mem_range.mp h1) k hk h2) hne

/-- Every segment of the second field is the image of one of the first. -/
theorem Congruent.target (h : Congruent S S' γ) {n' : ℕ} (hn' : n' = S'.first S'.N) (c : Fin n') : ∃ k < S.N, ∃ b < S.ns k, c.val = b + S'.first (γ k) := by
  obtain ⟨d, hd, b, hb, e⟩ := S'.first_exists (k := S'.N) (r := c.val) (by rw [← hn']; exact c.isLt)
  obtain ⟨k, hk, rfl⟩ := h.surj (d := d) (h.size ▸ hd)
  exact ⟨k, hk, b, by rw [← h.ns k hk]; exact hb, e⟩

theorem Congruent.grouped (h : Congruent S S' γ) (hf : Fit S rb) (alpha : ℝ) {π : Fin (segmentList (bores S) (counts S) (ratios S)).length → Fin (segmentList (bores S') (counts S') (ratios S')).length}
    (hπ : SegMap S S' γ π) (tl : List ℝ) :
    Grouped π (segmentResponse alpha (bores S) (counts S) (ratios S)) (segmentResponse alpha (bores S') (counts S') (ratios S')) tl ∧
    ∀ c, ∑ k with π k = c, segmentLengths (bores S) (counts S) (ratios S) k = segmentLengths (bores S') (counts S') (ratios S') c := by
  have hf' := h.fit hf
  have hn := segments_count S hf.len
  have hn' := segments_count S' hf'.len
  refine ⟨fun i c t _ => ?_, fun c => ?_⟩
  · obtain ⟨l, hl, b, hb, e⟩ := h.target hn' c
    obtain ⟨k, hk, a, ha, e2⟩ := S.first_exists (k := S.N) (r := i.val) (by rw [← hn]; exact i.isLt)
    have hi : i = ⟨a + S.first k, by rw [← e2]; exact i.isLt⟩ := Fin.ext e2
    rw [fiber_sum (φ := fun l b => fls t alpha (pairOf (S.seg l b) (S.seg k a)) true true) hn h.ns hπ (fun l hl b hb hlt => by rw [hi]; exact hf.response alpha t hk hl ha hb _ hlt)
      (by rw [h.ns l hl]; exact hb) e, h.single hl]
    have hpi := hπ k hk a ha (by rw [← e2]; exact i.isLt)
    have e3 : π i = ⟨a + S'.first (γ k), by rw [← hpi]; exact (π _).isLt⟩ := Fin.ext ((congrArg (fun j => (π j).val) hi).trans hpi)
    have e4 : c = ⟨b + S'.first (γ l), by rw [← e]; exact c.isLt⟩ := Fin.ext e
    rw [e3, e4, hf'.response alpha t (h.size ▸ h.maps k hk) (h.size ▸ h.maps l hl) (by rw [h.ns k hk]; exact ha) (by rw [h.ns l hl]; exact hb), h.pair hf hl hk hb ha]
  · obtain ⟨l, hl, b, hb, e⟩ := h.target hn' c
    rw [fiber_sum (φ := fun l b => (S.seg l b).H) hn h.ns hπ (fun l hl b hb hlt => hf.lengthAt hl hb hlt) (by rw [h.ns l hl]; exact hb) e, h.single hl]
    have e4 : c = ⟨b + S'.first (γ l), by rw [← e]; exact c.isLt⟩ := Fin.ext e
    rw [e4, hf'.lengthAt (h.size ▸ h.maps l hl) (by rw [h.ns l hl]; exact hb), h.seg_H hf hl hb]

/-- **C104** (uniform temperature).  Congruent fields have the same g-function with a uniform temperature, at all times, and corresponding segments have the same heat extraction rates:
neither the order of the boreholes nor their placement on the site has an effect. -/
theorem temperature_congruent (ha : 0 < alpha) (hK : ∀ t s r, K t true s r = fls t alpha (pairOf s r) true true) (hf : Fit S rb) (hC : Congruent S S' γ) (hsp : Spaced rb (bores S))
    {time : List ℝ} (hpos : ∀ t ∈ time, 0 < t) (hs : time.Pairwise (· < ·)) {thr : ℝ} (hthr : 0 < thr) :
    ∃ g Qs Qs', temperatureDetailed K (bores S) (counts S) (ratios S) time thr = some (g, Qs) ∧ temperatureDetailed K (bores S') (counts S') (ratios S') time thr = some (g, Qs') ∧
      Qs.length = time.length ∧ Qs'.length = time.length ∧
      ∀ (p : ℕ) Q Q', Qs[p]? = some Q → Qs'[p]? = some Q' → ∀ k < S.N, ∀ a < S.ns k, ∀ h h', Q ⟨a + S.first k, h⟩ = Q' ⟨a + S'.first (γ k), h'⟩ := by
  have hf' := hC.fit hf
  obtain ⟨⟨g, Qs⟩, h1⟩ := temperature_returns ha hK hf.upright hf.splits hsp hpos hs hthr
  obtain ⟨⟨g', Qs'⟩, h2⟩ := temperature_returns ha hK hf'.upright hf'.splits (hC.spaced hsp) hpos hs hthr
  obtain ⟨π, hπ⟩ := segMap_exists (S := S) (S' := S') (γ := γ) (segments_count S hf.len) (segments_count S' hf'.len) (fun k hk => hC.size ▸ hC.maps k hk) hC.ns
  obtain ⟨hG, hH⟩ := hC.grouped hf alpha hπ (timeLong time thr)
  have u1 := h1
  have u2 := h2
  unfold temperatureDetailed at u1 u2
  rw [if_pos fun t _ => (detailed_value hK hf.upright hf.splits t).1] at u1
  rw [if_pos fun t _ => (detailed_value hK hf'.upright hf'.splits t).1] at u2
  obtain ⟨rfl, rfl⟩ := ubwt_grouped (responses_sampled hK hf.upright hf.splits) (responses_sampled hK hf'.upright hf'.splits) hG hH u1 u2
  refine ⟨g, _, Qs', h1, h2, (ubwt_mean_one u1).2.1, (ubwt_mean_one u2).2.1, fun p Q Q' hQ hQ' k hk a ha h h' => ?_⟩
  rw [List.getElem?_map, hQ'] at hQ
  rw [← Option.some.inj hQ]
  dsimp only
  congr 1
  exact Fin.ext (hπ k hk a ha h)

/-- **C104** (symmetry).  In a field with a symmetry, which sends the borehole `k` to the borehole `γ k`, boreholes that correspond by the symmetry have the same heat extraction rates with a
uniform temperature, segment by segment and at all times. -/
theorem temperature_symmetric (ha : 0 < alpha) (hK : ∀ t s r, K t true s r = fls t alpha (pairOf s r) true true) (hf : Fit S rb) (hC : Congruent S S γ) (hsp : Spaced rb (bores S))
    {time : List ℝ} (hpos : ∀ t ∈ time, 0 < t) (hs : time.Pairwise (· < ·)) {thr : ℝ} (hthr : 0 < thr) :
    ∃ g Qs, temperatureDetailed K (bores S) (counts S) (ratios S) time thr = some (g, Qs) ∧ Qs.length = time.length ∧
      ∀ Q ∈ Qs, ∀ k < S.N, ∀ a < S.ns k, ∀ h h', Q ⟨a + S.first k, h⟩ = Q ⟨a + S.first (γ k), h'⟩ := by
  obtain ⟨g, Qs, Qs', h1, h2, h3, -, h5⟩ := temperature_congruent ha hK hf hC hsp hpos hs hthr
  have e : Qs = Qs' := by
    rw [h1] at h2
    exact (Prod.mk.inj (Option.some.inj h2)).2
  subst e
  refine ⟨g, Qs, h1, h3, fun Q hQ k hk a ha' h h' => ?_⟩
  obtain ⟨p, hp⟩ := List.mem_iff_getElem?.mp hQ
  exact h5 p Q Q hp hp k hk a ha' h h'

/-- The flow through congruent fields: corresponding segments have the same coefficients. -/
structure CongruentFlow (S S' : Sim) (γ : ℕ → ℕ) {n n' : ℕ} (f : Flow n) (f' : Flow n') : Prop where
  aIn : ∀ k < S.N, ∀ a < S.ns k, ∀ h h', f.aIn ⟨a + S.first k, h⟩ = f'.aIn ⟨a + S'.first (γ k), h'⟩
  aB : ∀ k < S.N, ∀ a < S.ns k, ∀ l < S.N, ∀ b < S.ns l, ∀ h1 h2 h3 h4, f.aB ⟨a + S.first k, h1⟩ ⟨b + S.first l, h2⟩ = f'.aB ⟨a + S'.first (γ k), h3⟩ ⟨b + S'.first (γ l), h4⟩
  Hb : ∀ k < S.N, ∀ a < S.ns k, ∀ h h', f.Hb ⟨a + S.first k, h⟩ = f'.Hb ⟨a + S'.first (γ k), h'⟩
  mcp : f.mcp = f'.mcp
  R : f.R = f'.R
  ks : f.ks = f'.ks

theorem CongruentFlow.grouped (h : Congruent S S' γ) {n n' : ℕ} (hn : n = S.first S.N) (hn' : n' = S'.first S'.N) {f : Flow n} {f' : Flow n'} (hF : CongruentFlow S S' γ f f')
    {π : Fin n → Fin n'} (hπ : SegMap S S' γ π) : GroupedFlow π f f' := by
  have hpi : ∀ i : Fin n, ∃ k < S.N, ∃ a < S.ns k, ∃ h1 h2, i = ⟨a + S.first k, h1⟩ ∧ π i = ⟨a + S'.first (γ k), h2⟩ := fun i => by
    obtain ⟨k, hk, a, ha, e⟩ := S.first_exists (k := S.N) (r := i.val) (by rw [← hn]; exact i.isLt)
    have h1 : a + S.first k < n := by rw [← e]; exact i.isLt
    have hi : i = ⟨a + S.first k, h1⟩ := Fin.ext e
    have := hπ k hk a ha h1
    exact ⟨k, hk, a, ha, h1, by rw [← this]; exact (π _).isLt, hi, Fin.ext ((congrArg (fun j => (π j).val) hi).trans this)⟩
  refine ⟨fun i => ?_, fun i c => ?_, fun i => ?_, hF.mcp, hF.R, hF.ks⟩
  · obtain ⟨k, hk, a, ha, h1, h2, e1, e2⟩ := hpi i
    rw [e2, e1]
    exact hF.aIn k hk a ha h1 h2
  · obtain ⟨k, hk, a, ha, h1, h2, e1, e2⟩ := hpi i
    obtain ⟨l, hl, b, hb, e⟩ := h.target hn' c
    have h4 : b + S'.first (γ l) < n' := by rw [← e]; exact c.isLt
    have e4 : c = ⟨b + S'.first (γ l), h4⟩ := Fin.ext e
    rw [fiber_sum (φ := fun l b => if h : b + S.first l < n then f.aB i ⟨b + S.first l, h⟩ else 0) hn h.ns hπ (fun l _ b _ hlt => by rw [dif_pos hlt]) (by rw [h.ns l hl]; exact hb) e,
      h.single hl, dif_pos (by rw [hn]; exact index_lt hl hb), e2, e1, e4]
    exact hF.aB k hk a ha l hl b hb _ _ _ _
  · obtain ⟨k, hk, a, ha, h1, h2, e1, e2⟩ := hpi i
    rw [e2, e1]
    exact hF.Hb k hk a ha h1 h2

/-- **C104** (mixed inlet temperature).  Congruent fields with the same flow have the same g-function with a mixed inlet temperature, and corresponding segments have the same heat
extraction rates and temperatures. -/
theorem mixed_congruent (ha : 0 < alpha) (hK : ∀ t s r, K t true s r = fls t alpha (pairOf s r) true true) (hf : Fit S rb) (hC : Congruent S S' γ) (hsp : Spaced rb (bores S))
    {time : List ℝ} (hpos : ∀ t ∈ time, 0 < t) (hs : time.Pairwise (· < ·)) {thr : ℝ} (hthr : 0 < thr) {f : Flow (segmentList (bores S) (counts S) (ratios S)).length}
    {f' : Flow (segmentList (bores S') (counts S') (ratios S')).length} (hF : CongruentFlow S S' γ f f') (hp : Passive f fun _ => 1) (hp' : Passive f' fun _ => 1) (hks : 0 < f.ks)
    (hHb : f.Hb = segmentLengths (bores S) (counts S) (ratios S)) (hHb' : f'.Hb = segmentLengths (bores S') (counts S') (ratios S')) :
    ∃ g Qs Qs' Ts Ts', mixedDetailed K (bores S) (counts S) (ratios S) f time thr = some (g, Qs, Ts) ∧ mixedDetailed K (bores S') (counts S') (ratios S') f' time thr = some (g, Qs', Ts') ∧
      Qs.length = time.length ∧ Qs'.length = time.length ∧
      (∀ (p : ℕ) Q Q', Qs[p]? = some Q → Qs'[p]? = some Q' → ∀ k < S.N, ∀ a < S.ns k, ∀ h h', Q ⟨a + S.first k, h⟩ = Q' ⟨a + S'.first (γ k), h'⟩) ∧
      ∀ k < S.N, ∀ a < S.ns k, ∀ h h', Ts ⟨a + S.first k, h⟩ = Ts' ⟨a + S'.first (γ k), h'⟩ := by
  have hf' := hC.fit hf
  obtain ⟨⟨g, Qs, Ts⟩, h1⟩ := mixed_returns ha hK hf.upright hf.splits hsp hpos hs hthr hp hks hHb
  obtain ⟨⟨g', Qs', Ts'⟩, h2⟩ := mixed_returns ha hK hf'.upright hf'.splits (hC.spaced hsp) hpos hs hthr hp' (hF.ks ▸ hks) hHb'
  obtain ⟨π, hπ⟩ := segMap_exists (S := S) (S' := S') (γ := γ) (segments_count S hf.len) (segments_count S' hf'.len) (fun k hk => hC.size ▸ hC.maps k hk) hC.ns
  obtain ⟨hG, hH⟩ := hC.grouped hf alpha hπ (timeLong time thr)
  have u1 := h1
  have u2 := h2
  unfold mixedDetailed at u1 u2
  rw [if_pos fun t _ => (detailed_value hK hf.upright hf.splits t).1] at u1
  rw [if_pos fun t _ => (detailed_value hK hf'.upright hf'.splits t).1] at u2
  obtain ⟨rfl, rfl, hT⟩ := mift_grouped (responses_sampled hK hf.upright hf.splits) (responses_sampled hK hf'.upright hf'.splits) hG
    (hF.grouped hC (segments_count S hf.len) (segments_count S' hf'.len) hπ) hH u1 u2
  refine ⟨g, _, Qs', Ts, Ts', h1, h2, (mift_mean_one u1).2.1, (mift_mean_one u2).2.1, fun p Q Q' hQ hQ' k hk a ha h h' => ?_, fun k hk a ha h h' => ?_⟩
  · rw [List.getElem?_map, hQ'] at hQ
    rw [← Option.some.inj hQ]
    dsimp only
    congr 1
    exact Fin.ext (hπ k hk a ha h)
  · rw [hT]
    congr 1
    exact Fin.ext (hπ k hk a ha h)

end Verif.Gf
