import Mathlib.Analysis.SpecialFunctions.Trigonometric.DerivHyp
import Verif.FLS.ApproxProps
import Verif.FLS.Exp1Props

/-!
# Properties C91, C92: the formula for the exponential integral within a factor of the exponential integral; the approximation for inclined boreholes
-/

noncomputable section

namespace Verif.FLS

open Real MeasureTheory Set Filter Topology

/-! ### The formula for the exponential integral, at every argument -/

theorem E1_log {x : ℝ} (hx : 0 < x) : exp (-x) * log (1 + 2 / x) / 2 ≤ E1 x := by
  have hd : ∀ u, x ≤ u → HasDerivAt (fun u => -(exp (-u) * log (1 + 2 / u) / 2)) (exp (-u) * (log (1 + 2 / u) / 2 + 1 / (u * (u + 2)))) u := fun u hu => by
    have h0 : 0 < u := by linarith
    have h1 : HasDerivAt (fun u : ℝ => exp (-u)) (-exp (-u)) u := by simpa using (hasDerivAt_neg u).exp
    have h2 : HasDerivAt (fun u : ℝ => 1 + 2 / u) (-2 / u ^ 2) u := by
      have := ((hasDerivAt_inv h0.ne').const_mul 2).const_add 1
      refine (this.congr_deriv ?_).congr_of_eventuallyEq (Eventually.of_forall fun y => ?_)
      · ring
      · simp [div_eq_mul_inv]
    have h3 := h2.log (by positivity : (1 + 2 / u) ≠ 0)
    refine (((h1.mul h3).div_const 2).neg).congr_deriv ?_
    field_simp
    ring
  have ht : Tendsto (fun u : ℝ => -(exp (-u) * log (1 + 2 / u) / 2)) atTop (𝓝 0) := by
    have h1 : Tendsto (fun u : ℝ => exp (-u)) atTop (𝓝 0) := tendsto_exp_neg_atTop_nhds_zero
    have h2 : Tendsto (fun u : ℝ => log (1 + 2 / u)) atTop (𝓝 0) := by
      have h3 : Tendsto (fun u : ℝ => 1 + 2 / u) atTop (𝓝 1) := by simpa using (tendsto_const_nhds.div_atTop tendsto_id : Tendsto (fun u : ℝ => 2 / u) atTop (𝓝 0)).const_add 1
      have h4 := (continuousAt_log one_ne_zero).tendsto.comp h3
      rw [log_one] at h4
      exact h4
    simpa using ((h1.mul h2).div_const 2).neg
  have hn : ∀ u ∈ Ioi x, 0 ≤ exp (-u) * (log (1 + 2 / u) / 2 + 1 / (u * (u + 2))) := fun u hu => by
    have h0 : 0 < u := hx.trans hu
    have := log_nonneg (by have : 0 < 2 / u := by positivity
                           linarith : 1 ≤ 1 + 2 / u)
    positivity
  have hi := integrableOn_Ioi_deriv_of_nonneg (hd x le_rfl).continuousAt.continuousWithinAt (fun u hu => hd u (le_of_lt hu)) hn ht
  have h := integral_Ioi_of_hasDerivAt_of_tendsto (hd x le_rfl).continuousAt.continuousWithinAt (fun u hu => hd u (le_of_lt hu)) hi ht
  rw [zero_sub, neg_neg] at h
  rw [← h]
  refine setIntegral_mono_on hi (E1_integrableOn hx) measurableSet_Ioi fun u hu => ?_
  have h0 : 0 < u := hx.trans hu
  rw [div_eq_mul_inv]
  refine mul_le_mul_of_nonneg_left ?_ (exp_pos _).le
  obtain ⟨z, hz⟩ : ∃ z, z = 1 + 2 / u := ⟨_, rfl⟩
  have hz1 : 1 ≤ z := by rw [hz]; have : 0 < 2 / u := by positivity
                         linarith
  have hs : log z ≤ (z - z⁻¹) / 2 := by
    have := self_le_sinh_iff.mpr (log_nonneg hz1)
    rwa [sinh_eq, exp_neg, exp_log (by linarith)] at this
  rw [← hz]
  have e : (z - z⁻¹) / 2 / 2 + 1 / (u * (u + 2)) = u⁻¹ := by
    rw [hz]
    field_simp
    ring
  linarith

/-- **C91**: at every argument the formula is at most four times the exponential integral. -/
theorem exp1_le {x : ℝ} (hx : 0 < x) : exp1 x ≤ 4 * E1 x := by
  have g1 := cG_lt; have g2 := cG_gt
  rw [exp1_eq]
  have h1 : cc x ≤ 2 * exp (-x) := by
    unfold cc
    have := mul_pos (by linarith : 0 < 1 - cG) (exp_pos (-x / (1 - cG)))
    rw [div_le_iff₀ (by linarith)]
    nlinarith [exp_pos (-x)]
  have h2 : log (1 + cu x) ≤ log (1 + 2 / x) := by
    refine log_le_log (by linarith [cu_pos hx]) ?_
    unfold cu
    have : 0 ≤ (1 - cG) / (ch x + cb * x) ^ 2 := div_nonneg (by linarith) (sq_nonneg _)
    have : cG / x ≤ 2 / x := div_le_div_of_nonneg_right (by linarith) hx.le
    linarith
  have h3 : 0 ≤ log (1 + cu x) := log_nonneg (by linarith [cu_pos hx])
  have h4 := E1_log hx
  calc cc x * log (1 + cu x) ≤ 2 * exp (-x) * log (1 + 2 / x) := mul_le_mul h1 h2 h3 (by positivity)
    _ ≤ 4 * E1 x := by linarith

theorem exp1_rel {x : ℝ} (hx : 0 < x) : |exp1 x - E1 x| ≤ 3 * E1 x := by
  have := exp1_pos hx; have := exp1_le hx; have := E1_pos hx
  rw [abs_le]
  constructor <;> linarith

/-- The hypotheses of `approx_close` can be met: an unconditional bound. -/
example {N : ℤ} (h0 : 0 ≤ N) (h1 : N ≤ 24) {t alpha : ℝ} (ht : 0 < alpha * t) {g : Pair} (hg : g.Ok) (rea img : Bool) :
    ∃ v, approx t alpha g rea img N = some v ∧ |v - fls t alpha g rea img| ≤ g.spans rea img / (4 * g.H2) * (3 + 3 * 3) * E1 (g.dis ^ 2 / (4 * alpha * t)) := by
  obtain ⟨ab, v, h, hv, hb⟩ := approx_close h0 h1 ht hg rea img
  obtain ⟨ab', h', z, hm, hl, -⟩ := coefficients_sound h0 h1
  rw [h] at h'
  cases h'
  refine ⟨v, hv, hb 3 3 (fun x hx => ?_) (fun x hx => exp1_rel hx) (by norm_num)⟩
  have a1 := hm 0 x le_rfl hx
  have a2 := hl x
  have a3 := abs_le.mp z
  have b1 : 0 ≤ erfc x := mul_nonneg (by positivity) (setIntegral_nonneg measurableSet_Ioi fun _ _ => (exp_pos _).le)
  have b2 : 0 ≤ erf x := mul_nonneg (by positivity) (intervalIntegral.integral_nonneg hx.le fun _ _ => (exp_pos _).le)
  rw [erfc_eq] at b1
  rw [abs_le]
  constructor <;> linarith [a3.1]

/-! ### Inclined boreholes -/

namespace Incl

open Bore

/-- The nodes of the source and their images are at least the radius away from the axis of the receiver, and so are the heads of the boreholes. -/
structure Clear (b1 b2 : Borehole) (nodes : List (ℝ × ℝ)) : Prop where
  H1 : 0 ≤ b1.H
  H2 : 0 < b2.H
  rad : 0 < b1.rb
  heads : b1.rb ^ 2 ≤ (b1.x - b2.x) ^ 2 + (b1.y - b2.y) ^ 2
  rea : ∀ n ∈ nodes, ∀ v : ℝ, b1.rb ^ 2 ≤ dist2 b1 b2 n.1 v
  img : ∀ n ∈ nodes, ∀ v : ℝ, b1.rb ^ 2 ≤ dist2img b1 b2 n.1 v

theorem Clear.gap {b1 b2 : Borehole} {nodes : List (ℝ × ℝ)} (h : Clear b1 b2 nodes) : gap b1 b2 = 0 := by
  unfold Incl.gap
  exact max_eq_left (by linarith [h.heads])

theorem Clear.apart {b1 b2 : Borehole} {nodes : List (ℝ × ℝ)} (h : Clear b1 b2 nodes) : Apart b1 b2 nodes :=
  ⟨h.H2, fun n hn v _ => by rw [h.gap]; have := h.rea n hn v; have := h.rad; nlinarith, fun n hn v _ => by have := h.img n hn v; have := h.rad; nlinarith⟩

section node
variable {rb rr dz k0 k1 k2 H1 H2 u a : ℝ}

/-- `erf (d s)` with the error function replaced by `A` on the positive numbers. -/
def signed (A : ℝ → ℝ) (d s : ℝ) : ℝ := SignType.sign d * A (|d| * s)

theorem signed_err {ab : List (ℝ × ℝ)} {ε : ℝ} (hε : ∀ x, 0 < x → |gaussSum ab x - erf x| ≤ ε) (d : ℝ) {s : ℝ} (hs : 0 < s) : |signed (gaussSum ab) d s - erf (d * s)| ≤ ε := by
  have he : 0 ≤ ε := (abs_nonneg _).trans (hε 1 one_pos)
  unfold signed
  rcases lt_trichotomy d 0 with h | rfl | h
  · rw [sign_neg h, abs_of_neg h, show d * s = -(-d * s) by ring, erf_neg]
    have := hε (-d * s) (mul_pos (by linarith) hs)
    simp only [SignType.coe_neg_one]
    rw [show -1 * gaussSum ab (-d * s) - -erf (-d * s) = -(gaussSum ab (-d * s) - erf (-d * s)) by ring, abs_neg]
    exact this
  · simp [erf_zero, he]
  · rw [sign_pos h, abs_of_pos h]
    simp only [SignType.coe_one, one_mul]
    exact hε _ (mul_pos h hs)

/-- One pair of coefficients. -/
theorem signed_integral {ab : List (ℝ × ℝ)} (hb : ∀ c ∈ ab, 0 ≤ c.2) {c : ℝ} (hc : 0 < c) (ha : 0 < a) (d : ℝ) :
    IntegrableOn (fun s => exp (-c * s ^ 2) / s * signed (gaussSum ab) d s) (Ioi a) ∧
    2 * ∫ s in Ioi a, exp (-c * s ^ 2) / s * signed (gaussSum ab) d s = (ab.map fun x => x.1 * (SignType.sign d * E1 ((c + x.2 * d ^ 2) * a ^ 2))).sum := by
  have hk : ∀ x ∈ ab, 0 < c + x.2 * d ^ 2 := fun x hx => by have := mul_nonneg (hb x hx) (sq_nonneg d); linarith
  have e : (fun s => exp (-c * s ^ 2) / s * signed (gaussSum ab) d s) = fun s => (ab.map fun x => x.1 * SignType.sign d * (exp (-(c + x.2 * d ^ 2) * s ^ 2) / s)).sum := by
    funext s
    unfold signed gaussSum
    rw [← List.sum_map_mul_left, ← List.sum_map_mul_left]
    congr 1
    apply List.map_congr_left
    intro x _
    rw [show -(c + x.2 * d ^ 2) * s ^ 2 = -c * s ^ 2 + -x.2 * (|d| * s) ^ 2 by rw [mul_pow, sq_abs]; ring, exp_add]
    ring
  have hi : ∀ x ∈ ab, IntegrableOn (fun s => x.1 * SignType.sign d * (exp (-(c + x.2 * d ^ 2) * s ^ 2) / s)) (Ioi a) := fun x hx =>
    (gauss_div_integrableOn (hk x hx) ha).const_mul _
  refine ⟨by rw [e]; exact sum_integrableOn hi, ?_⟩
  rw [e, sum_integral hi, ← List.sum_map_mul_left]
  congr 1
  apply List.map_congr_left
  intro x hx
  rw [integral_const_mul, gauss_div_integral (hk x hx) ha]
  ring

theorem node_error {ab : List (ℝ × ℝ)} (hb : ∀ c ∈ ab, 0 ≤ c.2) {e1 : ℝ → ℝ} {ε δ : ℝ} (hε : ∀ x, 0 < x → |gaussSum ab x - erf x| ≤ ε)
    (hδ : ∀ x, 0 < x → |e1 x - E1 x| ≤ δ * E1 x) (h0 : 0 ≤ δ) (ha : 0 < a) (hr : 0 < rb)
    (hi : IntegrableOn (fun s => 1 / s * node rr dz k0 k1 k2 H1 H2 u s) (Ioi a)) (hQ : ∀ v, rb ^ 2 ≤ Q rr dz k0 k1 k2 H1 u v) :
    |approxNode e1 ab rb rr dz k0 k1 k2 H1 H2 (a ^ 2) u - 2 * ∫ s in Ioi a, 1 / s * node rr dz k0 k1 k2 H1 H2 u s|
      ≤ 2 * (ε + δ * (ab.map fun c => |c.1|).sum) * E1 (rb ^ 2 * a ^ 2) := by
  obtain ⟨d1, h1⟩ : ∃ d1, d1 = u * H1 * k0 + k2 := ⟨_, rfl⟩
  obtain ⟨d2, h2⟩ : ∃ d2, d2 = d1 - H2 := ⟨_, rfl⟩
  obtain ⟨c, hc⟩ : ∃ c, c = rr + dz ^ 2 - d1 ^ 2 + (k1 + u * H1) ^ 2 - k1 ^ 2 := ⟨_, rfl⟩
  have hcr : rb ^ 2 ≤ c := by
    refine (hQ d1).trans (le_of_eq ?_)
    rw [hc, h1]
    unfold Q
    ring
  have hc0 : 0 < c := lt_of_lt_of_le (by positivity) hcr
  have he : 0 ≤ ε := (abs_nonneg _).trans (hε 1 one_pos)
  have hnode : ∀ s, 1 / s * node rr dz k0 k1 k2 H1 H2 u s = exp (-c * s ^ 2) / s * (erf (d1 * s) - erf (d2 * s)) := fun s => by
    unfold node
    rw [← h1, ← h2, show -(rr + dz ^ 2) * s ^ 2 + s ^ 2 * (u ^ 2 * H1 ^ 2 * (k0 ^ 2 - 1) + 2 * u * H1 * (k0 * k2 - k1) + k2 ^ 2) = -c * s ^ 2 by rw [hc, h1]; ring]
    ring
  have hE : E1 (c * a ^ 2) ≤ E1 (rb ^ 2 * a ^ 2) := E1_anti (by positivity) (mul_le_mul_of_nonneg_right hcr (sq_nonneg a))
  -- the sum of Gaussians
  obtain ⟨i1, v1⟩ := signed_integral hb hc0 ha d1
  obtain ⟨i2, v2⟩ := signed_integral hb hc0 ha d2
  have hsum : approxNode E1 ab rb rr dz k0 k1 k2 H1 H2 (a ^ 2) u
      = 2 * ∫ s in Ioi a, (exp (-c * s ^ 2) / s * signed (gaussSum ab) d1 s - exp (-c * s ^ 2) / s * signed (gaussSum ab) d2 s) := by
    rw [integral_sub i1 i2, mul_sub, v1, v2]
    unfold approxNode
    dsimp only
    rw [← h1, ← h2, ← hc, max_eq_left hcr]
    generalize ab = l
    induction l with
    | nil => simp
    | cons x l ih =>
      simp only [List.map_cons, List.sum_cons] at ih ⊢
      rw [ih]
      ring
  have hg : |approxNode E1 ab rb rr dz k0 k1 k2 H1 H2 (a ^ 2) u - 2 * ∫ s in Ioi a, 1 / s * node rr dz k0 k1 k2 H1 H2 u s| ≤ 2 * (ε * E1 (c * a ^ 2)) := by
    rw [hsum, ← mul_sub, ← integral_sub (f := fun s => exp (-c * s ^ 2) / s * signed (gaussSum ab) d1 s - exp (-c * s ^ 2) / s * signed (gaussSum ab) d2 s) (i1.sub i2) hi, abs_mul, abs_of_pos (by norm_num : (0 : ℝ) < 2)]
    refine mul_le_mul_of_nonneg_left ?_ (by norm_num)
    have hI : ‖∫ s in Ioi a, (exp (-c * s ^ 2) / s * signed (gaussSum ab) d1 s - exp (-c * s ^ 2) / s * signed (gaussSum ab) d2 s - 1 / s * node rr dz k0 k1 k2 H1 H2 u s)‖
        ≤ ∫ s in Ioi a, 2 * ε * (exp (-c * s ^ 2) / s) := by
      refine norm_integral_le_of_norm_le ((gauss_div_integrableOn hc0 ha).const_mul _) ((ae_restrict_mem measurableSet_Ioi).mono fun s hs => ?_)
      have hs0 : 0 < s := ha.trans hs
      rw [hnode, norm_eq_abs]
      have q1 := signed_err hε d1 hs0
      have q2 := signed_err hε d2 hs0
      rw [show exp (-c * s ^ 2) / s * signed (gaussSum ab) d1 s - exp (-c * s ^ 2) / s * signed (gaussSum ab) d2 s - exp (-c * s ^ 2) / s * (erf (d1 * s) - erf (d2 * s))
        = exp (-c * s ^ 2) / s * ((signed (gaussSum ab) d1 s - erf (d1 * s)) - (signed (gaussSum ab) d2 s - erf (d2 * s))) by ring, abs_mul,
        abs_of_pos (by positivity : 0 < exp (-c * s ^ 2) / s), mul_comm]
      refine mul_le_mul_of_nonneg_right ?_ (by positivity)
      refine (abs_sub _ _).trans ?_
      linarith
    rw [integral_const_mul, gauss_div_integral hc0 ha, norm_eq_abs] at hI
    refine hI.trans (le_of_eq ?_)
    ring
  -- the exponential integral
  have hx : |approxNode e1 ab rb rr dz k0 k1 k2 H1 H2 (a ^ 2) u - approxNode E1 ab rb rr dz k0 k1 k2 H1 H2 (a ^ 2) u| ≤ 2 * (δ * E1 (c * a ^ 2)) * (ab.map fun c => |c.1|).sum := by
    have hk : ∀ d x, 0 ≤ x → |SignType.sign d * (e1 ((c + x * d ^ 2) * a ^ 2) - E1 ((c + x * d ^ 2) * a ^ 2))| ≤ δ * E1 (c * a ^ 2) := by
      intro d x hx
      have hle : c ≤ c + x * d ^ 2 := by have := mul_nonneg hx (sq_nonneg d); linarith
      have h3 : |e1 ((c + x * d ^ 2) * a ^ 2) - E1 ((c + x * d ^ 2) * a ^ 2)| ≤ δ * E1 (c * a ^ 2) :=
        (hδ _ (mul_pos (by linarith) (by positivity))).trans (mul_le_mul_of_nonneg_left (E1_anti (by positivity) (mul_le_mul_of_nonneg_right hle (sq_nonneg a))) h0)
      rw [abs_mul]
      refine le_trans (mul_le_of_le_one_left (abs_nonneg _) ?_) h3
      cases SignType.sign d <;> simp
    have hd : approxNode e1 ab rb rr dz k0 k1 k2 H1 H2 (a ^ 2) u - approxNode E1 ab rb rr dz k0 k1 k2 H1 H2 (a ^ 2) u
        = (ab.map fun x => x.1 * (SignType.sign d1 * (e1 ((c + x.2 * d1 ^ 2) * a ^ 2) - E1 ((c + x.2 * d1 ^ 2) * a ^ 2))
          - SignType.sign d2 * (e1 ((c + x.2 * d2 ^ 2) * a ^ 2) - E1 ((c + x.2 * d2 ^ 2) * a ^ 2)))).sum := by
      unfold approxNode
      dsimp only
      rw [← h1, ← h2, ← hc, max_eq_left hcr]
      generalize ab = l
      induction l with
      | nil => simp
      | cons x l ih =>
        simp only [List.map_cons, List.sum_cons] at ih ⊢
        rw [← ih]
        ring
    rw [hd, mul_comm, ← List.sum_map_mul_right]
    refine sum_abs_le _ fun x hm => ?_
    rw [abs_mul]
    refine mul_le_mul_of_nonneg_left ?_ (abs_nonneg _)
    refine (abs_sub _ _).trans ?_
    have := hk d1 x.2 (hb x hm); have := hk d2 x.2 (hb x hm)
    linarith
  have hS : 0 ≤ (ab.map fun c => |c.1|).sum := List.sum_nonneg (by intro x hx; obtain ⟨c, -, rfl⟩ := List.mem_map.mp hx; exact abs_nonneg _)
  have h3 := abs_sub_le (approxNode e1 ab rb rr dz k0 k1 k2 H1 H2 (a ^ 2) u) (approxNode E1 ab rb rr dz k0 k1 k2 H1 H2 (a ^ 2) u)
    (2 * ∫ s in Ioi a, 1 / s * node rr dz k0 k1 k2 H1 H2 u s)
  have h4 : ε * E1 (c * a ^ 2) ≤ ε * E1 (rb ^ 2 * a ^ 2) := mul_le_mul_of_nonneg_left hE he
  have h5 : δ * (ab.map fun c => |c.1|).sum * E1 (c * a ^ 2) ≤ δ * (ab.map fun c => |c.1|).sum * E1 (rb ^ 2 * a ^ 2) := mul_le_mul_of_nonneg_left hE (mul_nonneg h0 hS)
  nlinarith

end node

/-- Number of sources. -/
def sources (rea img : Bool) : ℝ := (if rea then 1 else 0) + if img then 1 else 0

theorem weighted_error {α : Type*} (l : List α) {f g w : α → ℝ} {B : ℝ} (h : ∀ x ∈ l, |f x - 2 * g x| ≤ 2 * B) :
    |(l.map fun x => w x * f x).sum - 2 * (l.map fun x => w x * g x).sum| ≤ 2 * (B * (l.map fun x => |w x|).sum) := by
  have e : (l.map fun x => w x * f x).sum - 2 * (l.map fun x => w x * g x).sum = (l.map fun x => w x * (f x - 2 * g x)).sum := by
    clear h
    induction l with
    | nil => simp
    | cons x l ih =>
      simp only [List.map_cons, List.sum_cons] at ih ⊢
      rw [← ih]
      ring
  rw [e, ← mul_assoc, mul_comm, ← List.sum_map_mul_right]
  refine sum_abs_le _ fun x hx => ?_
  rw [abs_mul]
  exact mul_le_mul_of_nonneg_left (h x hx) (abs_nonneg _)

/-- **C92**: for boreholes at any angle whose nodes keep the radius of the source away from the axis of the receiver, the approximation differs from the inclined
finite line source solution by at most the errors of the two functions that it replaces. -/
theorem approx_error_inclined {ab : List (ℝ × ℝ)} (hb : ∀ c ∈ ab, 0 ≤ c.2) {t alpha : ℝ} (ht : 0 < alpha * t) {b1 b2 : Borehole} {nodes : List (ℝ × ℝ)}
    (h : Clear b1 b2 nodes) (rea img : Bool) {e1 : ℝ → ℝ} {ε δ : ℝ} (hε : ∀ x, 0 < x → |gaussSum ab x - erf x| ≤ ε)
    (hδ : ∀ x, 0 < x → |e1 x - E1 x| ≤ δ * E1 x) (h0 : 0 ≤ δ) :
    |approxWith e1 ab t alpha b1 b2 nodes rea img - fls t alpha b1 b2 nodes rea img|
      ≤ sources rea img * (b1.H / (2 * b2.H)) * (nodes.map fun n => |n.2|).sum * (ε + δ * (ab.map fun c => |c.1|).sum) * E1 (b1.rb ^ 2 / (4 * alpha * t)) := by
  have ha := lower_pos' ht
  have hA := h.apart
  have hss : 1 / (4 * alpha * t) = lower alpha t ^ 2 := by
    unfold lower
    rw [div_pow, sq_sqrt (by linarith), one_pow]
  have hH1 := h.H1; have hH2 := h.H2
  obtain ⟨a, hae⟩ : ∃ a, a = lower alpha t := ⟨_, rfl⟩
  obtain ⟨B, hB⟩ : ∃ B, B = (ε + δ * (ab.map fun c => |c.1|).sum) * E1 (b1.rb ^ 2 * a ^ 2) := ⟨_, rfl⟩
  rw [← hae] at ha hss
  have hx : b1.rb ^ 2 / (4 * alpha * t) = b1.rb ^ 2 * a ^ 2 := by rw [← hss]; ring
  have hr := weighted_error nodes (w := fun n => n.2) (B := B)
    (f := fun n => approxNode e1 ab b1.rb (dx b1 b2 ^ 2 + dy b1 b2 ^ 2) (dzRea b1 b2) (kRea0 b1 b2) (kRea1 b1 b2) (kRea2 b1 b2) b1.H b2.H (a ^ 2) n.1)
    (g := fun n => ∫ s in Ioi a, reaPart b1 b2 0 n s) fun n hn => by
      rw [hB, ← mul_assoc]
      have hi : IntegrableOn (reaPart b1 b2 0 n) (Ioi a) := by
        have := rea_int hA ha.le hn
        rwa [h.gap] at this
      unfold reaPart at hi ⊢
      simp only [add_zero] at hi ⊢
      exact node_error hb hε hδ h0 ha h.rad hi fun v => by
        have := Q_rea b1 b2 0 n.1 v
        simp only [add_zero] at this
        rw [this]
        exact h.rea n hn v
  have hm := weighted_error nodes (w := fun n => n.2) (B := B)
    (f := fun n => approxNode e1 ab b1.rb (dx b1 b2 ^ 2 + dy b1 b2 ^ 2) (dzImg b1 b2) (kImg0 b1 b2) (kImg1 b1 b2) (kImg2 b1 b2) b1.H b2.H (a ^ 2) n.1)
    (g := fun n => ∫ s in Ioi a, imgPart b1 b2 0 n s) fun n hn => by
      rw [hB, ← mul_assoc]
      have hi := img_int hA ha.le le_rfl hn
      unfold imgPart at hi ⊢
      simp only [add_zero] at hi ⊢
      exact node_error hb hε hδ h0 ha h.rad hi fun v => by
        have := Q_img b1 b2 0 n.1 v
        simp only [add_zero] at this
        rw [this]
        exact h.img n hn v
  have tr : ∫ s in Ioi a, total b1.H nodes (reaPart b1 b2 0) s = b1.H * (nodes.map fun n => n.2 * ∫ s in Ioi a, reaPart b1 b2 0 n s).sum := by
    rw [total_integral fun n hn => by have := rea_int hA ha.le hn; rwa [h.gap] at this, ← List.sum_map_mul_left]
    congr 1; apply List.map_congr_left; intro n _; ring
  have ti : ∫ s in Ioi a, total b1.H nodes (imgPart b1 b2 0) s = b1.H * (nodes.map fun n => n.2 * ∫ s in Ioi a, imgPart b1 b2 0 n s).sum := by
    rw [total_integral fun n hn => img_int hA ha.le le_rfl hn, ← List.sum_map_mul_left]
    congr 1; apply List.map_congr_left; intro n _; ring
  have ir := total_integrableOn (H1 := b1.H) fun n hn => by have := rea_int hA ha.le (n := n) hn; rwa [h.gap] at this
  have ii := total_integrableOn (H1 := b1.H) fun n hn => img_int hA ha.le (le_refl 0) (n := n) hn
  obtain ⟨W, hW⟩ : ∃ W, W = (nodes.map fun n => |n.2|).sum := ⟨_, rfl⟩
  rw [hx, mul_assoc _ (ε + _), ← hB, ← hW]
  rw [← hW] at hr hm
  unfold approxWith fls quad sources approxRea approxImg
  dsimp only
  rw [hss, ← hae]
  obtain ⟨AR, hAR⟩ : ∃ AR, AR = (nodes.map fun n => n.2 * approxNode e1 ab b1.rb (dx b1 b2 ^ 2 + dy b1 b2 ^ 2) (dzRea b1 b2) (kRea0 b1 b2) (kRea1 b1 b2) (kRea2 b1 b2) b1.H b2.H (a ^ 2) n.1).sum := ⟨_, rfl⟩
  obtain ⟨AI, hAI⟩ : ∃ AI, AI = (nodes.map fun n => n.2 * approxNode e1 ab b1.rb (dx b1 b2 ^ 2 + dy b1 b2 ^ 2) (dzImg b1 b2) (kImg0 b1 b2) (kImg1 b1 b2) (kImg2 b1 b2) b1.H b2.H (a ^ 2) n.1).sum := ⟨_, rfl⟩
  obtain ⟨IR, hIR⟩ : ∃ IR, IR = (nodes.map fun n => n.2 * ∫ s in Ioi a, reaPart b1 b2 0 n s).sum := ⟨_, rfl⟩
  obtain ⟨II, hII⟩ : ∃ II, II = (nodes.map fun n => n.2 * ∫ s in Ioi a, imgPart b1 b2 0 n s).sum := ⟨_, rfl⟩
  rw [← hAR, ← hIR] at hr
  rw [← hAI, ← hII] at hm
  rw [← hIR] at tr
  rw [← hII] at ti
  rw [← hAR, ← hAI]
  have q : 0 ≤ 0.25 * (b1.H / b2.H) := by positivity
  have fin : ∀ x y : ℝ, |x - 2 * y| ≤ 2 * (B * W) → |0.25 * (b1.H / b2.H) * x - 0.5 / b2.H * (b1.H * y)| ≤ b1.H / (2 * b2.H) * W * B := fun x y hxy => by
    rw [show 0.25 * (b1.H / b2.H) * x - 0.5 / b2.H * (b1.H * y) = 0.25 * (b1.H / b2.H) * (x - 2 * y) by field_simp; ring, abs_mul, abs_of_nonneg q]
    refine (mul_le_mul_of_nonneg_left hxy q).trans (le_of_eq ?_)
    field_simp
    ring
  cases rea <;> cases img
  · simp [integrand]
  · have := fin (-AI) (-II) (by rw [show -AI - 2 * -II = -(AI - 2 * II) by ring, abs_neg]; exact hm)
    rw [integrand_img, integral_neg, ti]
    simpa using this
  · have := fin AR IR hr
    rw [integrand_rea, h.gap, tr]
    simpa using this
  · have h1 := fin AR IR hr
    have h2 := fin AI II hm
    rw [integrand_all, h.gap, integral_sub ir ii, tr, ti]
    have e : 0.25 * (b1.H / b2.H) * (AR - AI) - 0.5 / b2.H * (b1.H * IR - b1.H * II)
        = (0.25 * (b1.H / b2.H) * AR - 0.5 / b2.H * (b1.H * IR)) - (0.25 * (b1.H / b2.H) * AI - 0.5 / b2.H * (b1.H * II)) := by ring
    simp only [Bool.and_self, if_true]
    rw [e]
    refine (abs_sub _ _).trans ?_
    linarith

/-- **C92**, with the coefficients of the tables and the formula for the exponential integral, for every number of terms that the tables can serve. -/
theorem approx_close_inclined {N : ℤ} (h0 : 0 ≤ N) (h1 : N ≤ 24) {t alpha : ℝ} (ht : 0 < alpha * t) {b1 b2 : Borehole} {nodes : List (ℝ × ℝ)} (h : Clear b1 b2 nodes) (rea img : Bool) :
    ∃ ab v, erfCoeffs N = some ab ∧ approx t alpha b1 b2 nodes rea img N = some v ∧
      ∀ ε δ : ℝ, (∀ x, 0 < x → |gaussSum ab x - erf x| ≤ ε) → (∀ x, 0 < x → |exp1 x - E1 x| ≤ δ * E1 x) → 0 ≤ δ →
        |v - fls t alpha b1 b2 nodes rea img|
          ≤ sources rea img * (b1.H / (2 * b2.H)) * (nodes.map fun n => |n.2|).sum * (ε + δ * (ab.map fun c => |c.1|).sum) * E1 (b1.rb ^ 2 / (4 * alpha * t)) := by
  obtain ⟨l, hl, -, hc, -⟩ := erfCoeffs_some h0 h1
  refine ⟨_, _, hl, by unfold approx; rw [hl]; rfl, fun ε δ hε hδ hd => approx_error_inclined (fun c hm => ?_) ht h rea img hε hδ hd⟩
  rcases List.mem_cons.mp hm with rfl | hm
  · exact le_rfl
  · exact (hc c hm).2.le

/-- Two boreholes in parallel planes, leaning to opposite sides. -/
def lean1 : Borehole := ⟨100, 4, 0.075, 0, 0, 0.5, 0⟩
def lean2 : Borehole := ⟨150, 2, 0.075, 3, 5, 0.3, π⟩

theorem lean_clear (nodes : List (ℝ × ℝ)) : Clear lean1 lean2 nodes := by
  have hy : ∀ u v, py lean1 u - py lean2 v = -5 := fun u v => by simp [py, lean1, lean2]
  refine ⟨by norm_num [lean1], by norm_num [lean2], by norm_num [lean1], by norm_num [lean1, lean2], fun n _ v => ?_, fun n _ v => ?_⟩
  · unfold dist2
    rw [hy]
    have : lean1.rb ^ 2 ≤ (-5) ^ 2 := by norm_num [lean1]
    nlinarith [sq_nonneg (px lean1 (n.1 * lean1.H) - px lean2 v), sq_nonneg (pz lean1 (n.1 * lean1.H) - pz lean2 v)]
  · unfold dist2img
    rw [hy]
    have : lean1.rb ^ 2 ≤ (-5) ^ 2 := by norm_num [lean1]
    nlinarith [sq_nonneg (px lean1 (n.1 * lean1.H) - px lean2 v), sq_nonneg (-pz lean1 (n.1 * lean1.H) - pz lean2 v)]

example := approx_close_inclined (N := 10) (by norm_num) (by norm_num) (t := 1e8) (alpha := 1e-6) (by norm_num) (lean_clear [(0.25, 0.5), (0.75, 0.5)]) true true

end Incl

end Verif.FLS
