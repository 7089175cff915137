import Verif.Gf.SimilarProps
import Verif.FLS.ApproxModel
import Verif.Gf.UniformProps

/-!
# g-functions only depend on dimensionless numbers

All lengths of a field (lengths, depths, radii, positions) are multiplied by `c`, the diffusivity is changed from `α` to `α'`, and the times are multiplied by `c² α / α'`: the response factors,
the heat extraction rates and the g-functions do not change.  This holds for the exact and the approximate finite line source solutions, vertical or inclined.
-/

noncomputable section

namespace Verif.Gf

open Bore FLS Sol

/-! ### Segments -/

theorem scaleBore_segmentAt (c : ℝ) (b : Borehole) (z ρ : ℝ) : (scaleBore c b).segmentAt (c * z) ρ = scaleBore c (b.segmentAt z ρ) := by
  simp only [scaleBore, Borehole.segmentAt, Borehole.new, Borehole.mk.injEq, true_and]
  refine ⟨by ring, by ring, by ring, by ring, rfl⟩

theorem scaleBore_segsFrom (c : ℝ) (b : Borehole) (r : List ℝ) (a : ℝ) : segsFrom (scaleBore c b) a r = (segsFrom b a r).map (scaleBore c) := by
  induction r generalizing a with
  | nil => rfl
  | cons ρ r ih =>
    rw [segsFrom, segsFrom, List.map_cons, ih, ← scaleBore_segmentAt]
    congr 2
    simp only [scaleBore]
    ring

theorem segmentList_scale (c : ℝ) (bs : List Borehole) (ns : List ℕ) (rs : List (List ℝ)) :
    segmentList (bs.map (scaleBore c)) ns rs = (segmentList bs ns rs).map (scaleBore c) := by
  unfold segmentList
  rw [List.zip_map_left, List.flatMap_map, List.map_flatMap]
  congr 1
  funext x
  simp only [Prod.map_fst, Prod.map_snd, id_eq, segments_eq, scaleBore_segsFrom]

theorem scaleBore_similar (c : ℝ) (bs : List Borehole) (ns : List ℕ) (rs : List (List ℝ)) : Similar c (scaleBore c) bs ns rs := ⟨segmentList_scale c bs ns rs, fun _ => rfl, fun _ => rfl⟩

theorem segment_count_scale (c : ℝ) (bs : List Borehole) (ns : List ℕ) (rs : List (List ℝ)) :
    (segmentList (bs.map (scaleBore c)) ns rs).length = (segmentList bs ns rs).length := (scaleBore_similar c bs ns rs).count

variable {c : ℝ}

/-! ### Finite line source solutions -/

/-- The pair of times and diffusivities. -/
theorem lower_scale (hc : 0 < c) {alpha alpha' t t' : ℝ} (h : alpha' * t' = c ^ 2 * (alpha * t)) : lower alpha' t' = c⁻¹ * lower alpha t := by
  unfold lower
  rw [show 4 * alpha' * t' = c ^ 2 * (4 * alpha * t) by linear_combination 4 * h, Real.sqrt_mul (by positivity), Real.sqrt_sq hc.le]
  field_simp

theorem vertical_scale (hc : 0 < c) {alpha alpha' t t' : ℝ} (h : alpha' * t' = c ^ 2 * (alpha * t)) (s r : Borehole) (rea img : Bool) :
    fls t' alpha' (pairOf (scaleBore c s) (scaleBore c r)) rea img = fls t alpha (pairOf s r) rea img := by
  rw [pairOf_scale hc, ← fls_scale hc t alpha]
  unfold fls
  congr 2
  unfold lower
  rw [mul_assoc, h]
  congr 2
  ring

theorem vertical_approx_scale (hc : 0 < c) {alpha alpha' t t' : ℝ} (h : alpha' * t' = c ^ 2 * (alpha * t)) (s r : Borehole) (rea img : Bool) (N : ℤ) :
    approx t' alpha' (pairOf (scaleBore c s) (scaleBore c r)) rea img N = approx t alpha (pairOf s r) rea img N := by
  have e : (Pair.scaleBy c (pairOf s r)).scaled alpha' t' = (pairOf s r).scaled alpha t := by
    have hs : √(4 * alpha' * t') = c * √(4 * alpha * t) := by
      rw [show 4 * alpha' * t' = c ^ 2 * (4 * alpha * t) by linear_combination 4 * h, Real.sqrt_mul (by positivity), Real.sqrt_sq hc.le]
    unfold Pair.scaled Pair.scaleBy
    simp only [hs, mul_div_mul_left _ _ hc.ne']
  rw [pairOf_scale hc]
  unfold approx approxWith
  simp only [e]

section Inclined

variable (c) (a b : Borehole)

theorem dx_scale : Incl.dx (scaleBore c a) (scaleBore c b) = c * Incl.dx a b := by simp only [Incl.dx, scaleBore]; ring
theorem dy_scale : Incl.dy (scaleBore c a) (scaleBore c b) = c * Incl.dy a b := by simp only [Incl.dy, scaleBore]; ring
theorem dzRea_scale : Incl.dzRea (scaleBore c a) (scaleBore c b) = c * Incl.dzRea a b := by simp only [Incl.dzRea, scaleBore]; ring
theorem dzImg_scale : Incl.dzImg (scaleBore c a) (scaleBore c b) = c * Incl.dzImg a b := by simp only [Incl.dzImg, scaleBore]; ring
theorem kRea0_scale : Incl.kRea0 (scaleBore c a) (scaleBore c b) = Incl.kRea0 a b := rfl
theorem kImg0_scale : Incl.kImg0 (scaleBore c a) (scaleBore c b) = Incl.kImg0 a b := rfl
theorem kRea1_scale : Incl.kRea1 (scaleBore c a) (scaleBore c b) = c * Incl.kRea1 a b := by
  unfold Incl.kRea1; rw [dx_scale, dy_scale, dzRea_scale]; simp only [scaleBore]; ring
theorem kImg1_scale : Incl.kImg1 (scaleBore c a) (scaleBore c b) = c * Incl.kImg1 a b := by
  unfold Incl.kImg1; rw [dx_scale, dy_scale, dzImg_scale]; simp only [scaleBore]; ring
theorem kRea2_scale : Incl.kRea2 (scaleBore c a) (scaleBore c b) = c * Incl.kRea2 a b := by
  unfold Incl.kRea2; rw [dx_scale, dy_scale, dzRea_scale]; simp only [scaleBore]; ring
theorem kImg2_scale : Incl.kImg2 (scaleBore c a) (scaleBore c b) = c * Incl.kImg2 a b := by
  unfold Incl.kImg2; rw [dx_scale, dy_scale, dzImg_scale]; simp only [scaleBore]; ring
theorem rr_scale : Incl.rr (scaleBore c a) (scaleBore c b) = c ^ 2 * Incl.rr a b := by
  unfold Incl.rr
  rw [dx_scale, dy_scale, mul_max_of_nonneg _ _ (sq_nonneg c)]
  simp only [scaleBore]
  congr 1 <;> ring

theorem node_scale (rr dz k0 k1 k2 H1 H2 u s : ℝ) : Incl.node (c ^ 2 * rr) (c * dz) k0 (c * k1) (c * k2) (c * H1) (c * H2) u s = Incl.node rr dz k0 k1 k2 H1 H2 u (c * s) := by
  unfold Incl.node
  congr 1
  · congr 1; ring
  · congr 1 <;> congr 1 <;> ring

theorem incl_integrand_scale (hc : 0 < c) (nodes : List (ℝ × ℝ)) (rea img : Bool) (s : ℝ) :
    Incl.integrand (scaleBore c a) (scaleBore c b) nodes rea img s = c ^ 2 * Incl.integrand a b nodes rea img (c * s) := by
  have hd : (c * Incl.dx a b) ^ 2 + (c * Incl.dy a b) ^ 2 = c ^ 2 * (Incl.dx a b ^ 2 + Incl.dy a b ^ 2) := by ring
  have hH : c * a.H / s = c ^ 2 * (a.H / (c * s)) := by field_simp
  unfold Incl.integrand
  simp only [rr_scale, dx_scale, dy_scale, hd, dzRea_scale, dzImg_scale, kRea0_scale, kImg0_scale, kRea1_scale, kImg1_scale, kRea2_scale, kImg2_scale,
    show (scaleBore c b).H = c * b.H from rfl, show (scaleBore c a).H = c * a.H from rfl, node_scale, hH]
  split_ifs
  · rw [← List.sum_map_mul_left]
    congr 2
    funext x
    ring
  · rw [← List.sum_map_mul_left]
    congr 2
    funext x
    ring
  · rw [mul_neg, ← List.sum_map_mul_left]
    congr 3
    funext x
    ring
  · ring

end Inclined

theorem inclined_scale (hc : 0 < c) {alpha alpha' t t' : ℝ} (h : alpha' * t' = c ^ 2 * (alpha * t)) (s r : Borehole) (nodes : List (ℝ × ℝ)) (rea img : Bool) :
    Incl.fls t' alpha' (scaleBore c s) (scaleBore c r) nodes rea img = Incl.fls t alpha s r nodes rea img := by
  unfold Incl.fls quad
  dsimp only
  rw [lower_scale hc h, MeasureTheory.setIntegral_congr_fun measurableSet_Ioi fun x _ => incl_integrand_scale c s r hc nodes rea img x, MeasureTheory.integral_const_mul,
    MeasureTheory.integral_comp_mul_left_Ioi _ _ hc, mul_inv_cancel_left₀ hc.ne', smul_eq_mul]
  show 0.5 / (c * r.H) * _ = _
  field_simp

theorem inclined_approx_scale (hc : 0 < c) {alpha alpha' t t' : ℝ} (h : alpha' * t' = c ^ 2 * (alpha * t)) (s r : Borehole) (nodes : List (ℝ × ℝ)) (rea img : Bool) (N : ℤ) :
    Incl.approx t' alpha' (scaleBore c s) (scaleBore c r) nodes rea img N = Incl.approx t alpha s r nodes rea img N := by
  have hss : 1 / (4 * alpha' * t') = (c ^ 2)⁻¹ * (1 / (4 * alpha * t)) := by
    rw [show 4 * alpha' * t' = c ^ 2 * (4 * alpha * t) by linear_combination 4 * h, one_div, mul_inv, one_div]
  have hsign : ∀ x : ℝ, SignType.sign (c * x) = SignType.sign x := fun x => by rw [sign_mul, sign_pos hc, one_mul]
  have hnode : ∀ (e1 : ℝ → ℝ) (ab : List (ℝ × ℝ)) (rb rr dz k0 k1 k2 H1 H2 ss u : ℝ),
      Incl.approxNode e1 ab (c * rb) (c ^ 2 * rr) (c * dz) k0 (c * k1) (c * k2) (c * H1) (c * H2) ((c ^ 2)⁻¹ * ss) u = Incl.approxNode e1 ab rb rr dz k0 k1 k2 H1 H2 ss u := by
    intro e1 ab rb rr dz k0 k1 k2 H1 H2 ss u
    unfold Incl.approxNode
    dsimp only
    rw [show u * (c * H1) * k0 + c * k2 - c * H2 = c * (u * H1 * k0 + k2 - H2) by ring, show u * (c * H1) * k0 + c * k2 = c * (u * H1 * k0 + k2) by ring,
      show c ^ 2 * rr + (c * dz) ^ 2 - (c * (u * H1 * k0 + k2)) ^ 2 + (c * k1 + u * (c * H1)) ^ 2 - (c * k1) ^ 2 =
        c ^ 2 * (rr + dz ^ 2 - (u * H1 * k0 + k2) ^ 2 + (k1 + u * H1) ^ 2 - k1 ^ 2) by ring, show (c * rb) ^ 2 = c ^ 2 * rb ^ 2 by ring, ← mul_max_of_nonneg _ _ (sq_nonneg c), hsign, hsign]
    have hx : ∀ m x d : ℝ, (c ^ 2 * m + x * (c * d) ^ 2) * ((c ^ 2)⁻¹ * ss) = (m + x * d ^ 2) * ss := fun m x d => by
      have : c ^ 2 ≠ 0 := (pow_pos hc 2).ne'
      field_simp
    simp only [hx]
  have hd : (c * Incl.dx s r) ^ 2 + (c * Incl.dy s r) ^ 2 = c ^ 2 * (Incl.dx s r ^ 2 + Incl.dy s r ^ 2) := by ring
  unfold Incl.approx Incl.approxWith Incl.approxRea Incl.approxImg
  simp only [hss, dx_scale, dy_scale, hd, dzRea_scale, dzImg_scale, kRea0_scale, kImg0_scale, kRea1_scale, kImg1_scale, kRea2_scale, kImg2_scale,
    show ∀ b, (scaleBore c b).H = c * b.H from fun _ => rfl, show ∀ b, (scaleBore c b).rb = c * b.rb from fun _ => rfl, hnode, mul_div_mul_left _ _ hc.ne']

/-! ### g-functions -/

/-- The finite line source solutions by `quad`: vertical, or inclined with the nodes and weights `nodes`. -/
def lineSource (nodes : List (ℝ × ℝ)) (alpha t : ℝ) (v : Bool) (s r : Borehole) : ℝ :=
  if v then fls t alpha (pairOf s r) true true else Incl.fls t alpha s r nodes true true

/-- The approximate finite line source solutions with `N` terms (`none` is an exception, see C52; here zero). -/
def lineSourceApprox (N : ℤ) (nodes : List (ℝ × ℝ)) (alpha t : ℝ) (v : Bool) (s r : Borehole) : ℝ :=
  (if v then approx t alpha (pairOf s r) true true N else Incl.approx t alpha s r nodes true true N).getD 0

/-- Specification: response factors with all lengths multiplied by `c` are those at times multiplied by `lam`. -/
def Homogeneous (c lam : ℝ) (K K' : ℝ → Bool → Borehole → Borehole → ℝ) : Prop := ∀ t v s r, K' (lam * t) v (scaleBore c s) (scaleBore c r) = K t v s r

theorem lineSource_homogeneous (hc : 0 < c) {alpha alpha' : ℝ} (ha' : 0 < alpha') (nodes : List (ℝ × ℝ)) :
    Homogeneous c (c ^ 2 * alpha / alpha') (lineSource nodes alpha) (lineSource nodes alpha') := fun t v s r => by
  have h : alpha' * (c ^ 2 * alpha / alpha' * t) = c ^ 2 * (alpha * t) := by field_simp
  unfold lineSource
  rw [vertical_scale hc h, inclined_scale hc h]

theorem lineSourceApprox_homogeneous (hc : 0 < c) {alpha alpha' : ℝ} (ha' : 0 < alpha') (N : ℤ) (nodes : List (ℝ × ℝ)) :
    Homogeneous c (c ^ 2 * alpha / alpha') (lineSourceApprox N nodes alpha) (lineSourceApprox N nodes alpha') := fun t v s r => by
  have h : alpha' * (c ^ 2 * alpha / alpha' * t) = c ^ 2 * (alpha * t) := by field_simp
  unfold lineSourceApprox
  rw [vertical_approx_scale hc h, inclined_approx_scale hc h]

variable {lam : ℝ} {F F' : ℝ → Bool → Borehole → Borehole → ℝ} {bs : List Borehole} {ns : List ℕ} {rs : List (List ℝ)}

theorem Homogeneous.homologous (h : Homogeneous c lam F F') (segs : List Borehole) : Homologous lam (scaleBore c) segs F F' := fun t v s _ r _ => h t v s r

/-- **C126** (uniform heat extraction rate).  With all lengths multiplied by `c` and the diffusivity changed, the g-function at the same dimensionless times is the same. -/
theorem uniform_scale (hl : 0 < lam) (hc : 0 < c) (hK : Homogeneous c lam F F') (time : List ℝ) (thr : ℝ) :
    uniformDetailed F' (bs.map (scaleBore c)) ns rs (time.map (lam * ·)) (lam * thr) = uniformDetailed F bs ns rs time thr := uniform_similar hl hc (scaleBore_similar c bs ns rs) (hK.homologous _) time thr

/-- **C126** (uniform temperature).  The same for the g-function and the heat extraction rates with a uniform temperature; one solution exists when the other does. -/
theorem temperature_scale (hl : 0 < lam) (hc : 0 < c) (hK : Homogeneous c lam F F') (time : List ℝ) (thr : ℝ) :
    temperatureDetailed F' (bs.map (scaleBore c)) ns rs (time.map (lam * ·)) (lam * thr) =
      (temperatureDetailed F bs ns rs time thr).map fun o => (o.1, o.2.map fun Q i => Q (i.cast (segment_count_scale c bs ns rs))) :=
  temperature_similar hl hc (scaleBore_similar c bs ns rs) (hK.homologous _) time thr

/-- **C126** (mixed inlet temperature).  The same with a mixed inlet temperature, when the conductivities of the ground and the borehole, and the flow rates per length, are multiplied by `κ`. -/
theorem mixed_scale (hl : 0 < lam) (hc : 0 < c) {κ : ℝ} (hκ : 0 < κ) (hK : Homogeneous c lam F F') (f : Flow (segmentList bs ns rs).length) (time : List ℝ) (thr : ℝ) :
    mixedDetailed F' (bs.map (scaleBore c)) ns rs (scaleFlow (segment_count_scale c bs ns rs) c κ f) (time.map (lam * ·)) (lam * thr) =
      (mixedDetailed F bs ns rs f time thr).map fun o =>
        (o.1, o.2.1.map fun Q i => Q (i.cast (segment_count_scale c bs ns rs)), fun i => o.2.2 (i.cast (segment_count_scale c bs ns rs))) :=
  mixed_similar hl hc hκ (scaleBore_similar c bs ns rs) (hK.homologous _) f time thr

end Verif.Gf
