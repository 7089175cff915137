import Verif.Pipe.ConvProps

/-!
# Properties C49 and C69: friction in the annulus, fluid to pipe and fluid to fluid resistances
-/

noncomputable section

namespace Verif.Pipe.Conv

open Real

/-- **C49** (violated).  The friction factor of the annulus is not the one at the Reynolds number of the flow in the annulus, even in turbulent flow and up
to a hundred times the tolerance of the friction factor: an annulus with `r_i : r_o = 9 : 11` at `Re = 4000` gets the friction factor of `Re = 40000`. -/
theorem annulus_friction_fails : ¬ ∀ (m ri ro : ℝ) (fl : Fluid) (eps f f' : ℝ), 0 < ri → ri < ro → fl.Ok → 0 ≤ eps → eps ≤ ro - ri →
    2300 ≤ reynoldsA m ri ro fl → Friction m (2 * (ro - ri) / 2) fl eps (1 / 10 ^ 6) f →
    FrictionAt (eps / (2 * (2 * (ro - ri) / 2))) (reynoldsA m ri ro fl) (1 / 10 ^ 6) f' → |1 / √f - 1 / √f'| ≤ 100 / 10 ^ 6 := by
  intro hall
  -- m = 40 π kg/s with mu = 1 / 100 in an annulus of 9 to 11 m (any scale will do)
  have hA : reynoldsA (400 * π) 9 11 ⟨1 / 100, 1, 1, 100⟩ = 4000 := by
    unfold reynoldsA
    have := pi_pos
    rw [abs_of_pos (by positivity)]
    norm_num
    field_simp
    norm_num
  have hF : reynolds (400 * π) (2 * (11 - 9) / 2) ⟨1 / 100, 1, 1, 100⟩ = 40000 := by
    rw [annulus_reynolds _ _ _ _ (by norm_num) (by norm_num) (by norm_num), hA]; norm_num
  obtain ⟨f, hf, _⟩ := friction_defined (E := 0) (Re := 40000) (tol := 1 / 10 ^ 6) le_rfl (by norm_num) (by norm_num)
  obtain ⟨f', hf', _⟩ := friction_defined (E := 0) (Re := 4000) (tol := 1 / 10 ^ 6) le_rfl (by norm_num) (by norm_num)
  have h := hall (400 * π) 9 11 ⟨1 / 100, 1, 1, 100⟩ 0 f f' (by norm_num) (by norm_num) ⟨by norm_num, by norm_num, by norm_num, by norm_num⟩ le_rfl (by norm_num)
    (by rw [hA]; norm_num) (by unfold Friction; rw [hF, zero_div]; exact hf) (by rw [hA, zero_div]; exact hf')
  obtain ⟨x, hx1, hx⟩ := root_at (E := 0) (Re := 40000) le_rfl (by norm_num) (by norm_num)
  obtain ⟨x', hx1', hx'⟩ := root_at (E := 0) (Re := 4000) le_rfl (by norm_num) (by norm_num)
  obtain ⟨y, hy1, hy, hd⟩ := friction_root (E := 0) (Re := 40000) le_rfl (by norm_num) (by norm_num) (by norm_num) (by norm_num) (by linarith) hx hf
  obtain ⟨y', hy1', hy', hd'⟩ := friction_root (E := 0) (Re := 4000) le_rfl (by norm_num) (by norm_num) (by norm_num) (by norm_num) (by linarith) hx' hf'
  have hs : ∀ z : ℝ, 1 ≤ z → 1 / √(1 / z ^ 2) = z := fun z hz => by
    rw [sqrt_div zero_le_one, sqrt_one, sqrt_sq (by linarith), one_div_one_div]
  rw [hy, hy', hs y hy1, hs y' hy1'] at h
  have hc : cc * log 10 = 2 := by
    have := log10_gt
    unfold cc; field_simp
  have hcp := cc_pos
  -- the root at 40000 is above 6
  have h6 : 6 ≤ x := by
    by_contra hlt
    push Not at hlt
    have h1 : (0 : ℝ) / 3.7 + 2.51 / 40000 * x ≤ 1 / 10 ^ 3 := by norm_num; linarith
    have h2 : 0 < (0 : ℝ) / 3.7 + 2.51 / 40000 * x := by norm_num; linarith
    have h3 := log_le_log h2 h1
    rw [log_div one_ne_zero (by norm_num), log_one, log_pow] at h3
    push_cast at h3
    rw [cg_eq] at hx
    have : cc * log (0 / 3.7 + 2.51 / 40000 * x) ≤ cc * (0 - 3 * log 10) := mul_le_mul_of_nonneg_left h3 hcp.le
    nlinarith
  -- the root at 4000 is below 5.2
  have h5 : x' ≤ 5.2 := by
    by_contra hlt
    push Not at hlt
    have h1 : 1 / 10 ^ 5 ≤ ((0 : ℝ) / 3.7 + 2.51 / 4000 * x') ^ 2 := by
      have : (0.0032 : ℝ) ≤ 0 / 3.7 + 2.51 / 4000 * x' := by norm_num at hlt ⊢; linarith
      calc (1 / 10 ^ 5 : ℝ) ≤ 0.0032 ^ 2 := by norm_num
        _ ≤ _ := by gcongr
    have h3 := log_le_log (by norm_num) h1
    rw [log_div one_ne_zero (by norm_num), log_one, log_pow, log_pow] at h3
    push_cast at h3
    rw [cg_eq] at hx'
    have : cc * ((0 - 5 * log 10) / 2) ≤ cc * log (0 / 3.7 + 2.51 / 4000 * x') := mul_le_mul_of_nonneg_left (by linarith) hcp.le
    norm_num at hlt
    nlinarith
  have a1 := abs_le.mp hd
  have a2 := abs_le.mp hd'
  have a3 := abs_le.mp h
  norm_num at *
  linarith

/-- **C49** (partial).  The friction factor of the annulus is the one at `(r_o + r_i)/(r_o - r_i)` times the Reynolds number of the annulus, so that the exact
friction factor is underestimated in turbulent flow for every annulus. -/
theorem annulus_friction_partial (m ri ro : ℝ) (fl : Fluid) (eps tol f : ℝ) (hri : 0 < ri) (hro : ri < ro) (hfl : fl.Ok) (he : 0 ≤ eps) (he' : eps ≤ ro - ri)
    (hRe : 2300 ≤ reynoldsA m ri ro fl) :
    (Friction m (2 * (ro - ri) / 2) fl eps tol f ↔ FrictionAt (eps / (2 * (ro - ri))) ((ro + ri) / (ro - ri) * reynoldsA m ri ro fl) tol f) ∧
    ∀ fs fs', Colebrook (eps / (2 * (ro - ri))) ((ro + ri) / (ro - ri) * reynoldsA m ri ro fl) fs → Colebrook (eps / (2 * (ro - ri))) (reynoldsA m ri ro fl) fs' → fs < fs' := by
  have hd0 : 0 < ro - ri := by linarith
  have hrh : 2 * (ro - ri) / 2 = ro - ri := by ring
  refine ⟨?_, fun fs fs' h h' => ?_⟩
  · unfold Friction
    rw [annulus_reynolds m ri ro fl hri.le hro hfl.rho, hrh]
  · rw [colebrook_iff] at h h'
    have hE : 0 ≤ eps / (2 * (ro - ri)) := by positivity
    have hE' : eps / (2 * (ro - ri)) ≤ 1 / 2 := by rw [div_le_div_iff₀ (by positivity) two_pos]; linarith
    have hk : 1 < (ro + ri) / (ro - ri) := by rw [lt_div_iff₀ hd0]; linarith
    generalize reynoldsA m ri ro fl = R at *
    have hRS : R < (ro + ri) / (ro - ri) * R := by nlinarith
    generalize (ro + ri) / (ro - ri) * R = S at *
    obtain ⟨c1, c2, _, _⟩ := coeff_ok hE hE' hRe
    have c3 : 0 < 2.51 / S := by have : 0 < S := by linarith
                                 positivity
    have hx : 0 < 1 / √fs := by have := sqrt_pos.mpr h.1; positivity
    have hx' : 0 < 1 / √fs' := by have := sqrt_pos.mpr h'.1; positivity
    have hlt : 1 / √fs' < 1 / √fs := by
      by_contra hle
      push Not at hle
      have h1 := cg_anti c1 c3 hx hle
      rw [← h.2] at h1
      have h2 : cg (eps / (2 * (ro - ri)) / 3.7) (2.51 / R) (1 / √fs') < cg (eps / (2 * (ro - ri)) / 3.7) (2.51 / S) (1 / √fs') := by
        rw [cg_eq, cg_eq]
        have hb : 2.51 / S < 2.51 / R := by gcongr
        have := log_lt_log (arg_pos c1 c3 hx') (show eps / (2 * (ro - ri)) / 3.7 + 2.51 / S * (1 / √fs') < eps / (2 * (ro - ri)) / 3.7 + 2.51 / R * (1 / √fs') by gcongr)
        have := cc_pos
        nlinarith
      rw [← h'.2] at h2
      linarith
    rw [one_div_lt_one_div (sqrt_pos.mpr h'.1) (sqrt_pos.mpr h.1)] at hlt
    exact (sqrt_lt_sqrt_iff h.1.le).mp hlt

/-! ### C69 -/

/-- Conduction through consecutive layers adds up. -/
theorem conduction_series (r1 r2 r3 k : ℝ) (h1 : 0 < r1) (h2 : 0 < r2) (h3 : 0 < r3) : conduction r1 r2 k + conduction r2 r3 k = conduction r1 r3 k := by
  unfold conduction
  rw [log_div h2.ne' h1.ne', log_div h3.ne' h2.ne', log_div h3.ne' h1.ne']
  ring

/-- Dimensions and roughness that make sense for a U-tube (index 0). -/
structure UOk (d : Dim) (eps : ℝ) (fl : Fluid) : Prop where
  fluid : fl.Ok
  rIn : 0 < d.rIn 0
  rOut : d.rIn 0 < d.rOut 0
  kp : 0 < d.kp 0
  rough : 0 ≤ eps
  rough' : eps ≤ d.rIn 0

/-- … and for a coaxial pipe whose inner pipe has index `i` and outer pipe has index `o`. -/
structure COk (d : Dim) (i o : Fin 2) (eps : ℝ) (fl : Fluid) : Prop where
  fluid : fl.Ok
  rIn : 0 < d.rIn i
  rOut : d.rIn i < d.rOut i
  gap : d.rOut i < d.rIn o
  outer : d.rIn o < d.rOut o
  kpi : 0 < d.kp i
  kpo : 0 < d.kp o
  rough : 0 ≤ eps
  rough' : eps ≤ d.rIn i
  rough'' : eps ≤ d.rIn o - d.rOut i

theorem conduction_pos {r1 r2 k : ℝ} (h1 : 0 < r1) (h2 : r1 < r2) (hk : 0 < k) : 0 < conduction r1 r2 k := by
  unfold conduction
  have := log_pos ((one_lt_div h1).mpr h2)
  have := pi_pos
  positivity

theorem circular_at {m r : ℝ} {fl : Fluid} {eps : ℝ} (hr : 0 < r) (hfl : fl.Ok) (he : 0 ≤ eps) (he' : eps ≤ r) : ∃ h, (∀ h', Circular m r fl eps h' ↔ h' = h) ∧ 0 < h := by
  obtain ⟨H, _, _, h⟩ := circular_smooth r fl eps hr hfl he he'
  obtain ⟨h, h1, h2, _⟩ := h m
  exact ⟨h, h1, h2⟩

theorem annulus_at {m ri ro : ℝ} {fl : Fluid} {eps : ℝ} (hri : 0 < ri) (hro : ri < ro) (hfl : fl.Ok) (he : 0 ≤ eps) (he' : eps ≤ ro - ri) :
    ∃ h, (∀ h', Annulus m ri ro fl eps h' ↔ h' = h) ∧ 0 < h.1 ∧ 0 < h.2 := by
  obtain ⟨h0, ⟨_, _, _, h1⟩, ⟨_, _, _, h2⟩⟩ := annulus_smooth ri ro fl eps hri hro hfl he he'
  obtain ⟨h, hh⟩ := h0 m
  obtain ⟨a, ha, hap, _⟩ := h1 m
  obtain ⟨b, hb, hbp, _⟩ := h2 m
  have e1 : h.1 = a := (ha h.1).mp ⟨h.2, (hh _).mpr rfl⟩
  have e2 : h.2 = b := (hb h.2).mp ⟨h.1, (hh _).mpr rfl⟩
  exact ⟨h, hh, e1 ▸ hap, e2 ▸ hbp⟩

/-- **C69** (U-tubes).  The fluid to pipe resistance is defined at every flow rate and exceeds that of the pipe wall by the
resistance of the convection at the inner surface; a double U-tube in series
is a single U-tube, and two parallel U-tubes with twice the flow rate too. -/
theorem fluid_to_pipe_utube (m : ℝ) (d : Dim) (eps : ℝ) (fl : Fluid) (h : UOk d eps fl) :
    (∃ R, (∀ R', FluidToPipe .single m d eps fl R' ↔ R' = R) ∧ ∃ h, Circular m (d.rIn 0) fl eps h ∧ 0 < h ∧
      h * (2 * π * d.rIn 0) * (R - log (d.rOut 0 / d.rIn 0) / (2 * π * d.kp 0)) = 1) ∧
    (∀ R, FluidToPipe .doubleSeries m d eps fl R ↔ FluidToPipe .single m d eps fl R) ∧
    (∀ R, FluidToPipe .doubleParallel (2 * m) d eps fl R ↔ FluidToPipe .single m d eps fl R) := by
  refine ⟨?_, fun R => Iff.rfl, fun R => ?_⟩
  · obtain ⟨c, hc, hp⟩ := circular_at (m := m) h.rIn h.fluid h.rough h.rough'
    refine ⟨conduction (d.rIn 0) (d.rOut 0) (d.kp 0) + 1 / (c * 2 * π * d.rIn 0), fun R' => ?_, c, (hc c).mpr rfl, hp, ?_⟩
    · simp only [FluidToPipe, hc, exists_eq_left]
    · have := h.rIn
      have := pi_pos
      unfold conduction
      field_simp
      ring
  · simp only [FluidToPipe, mul_div_cancel_left₀ m (two_ne_zero)]

/-- Exchange of the two indices. -/
def Dim.swap (d : Dim) : Dim := ⟨fun i => d.rIn (1 - i), fun i => d.rOut (1 - i), fun i => d.kp (1 - i)⟩

/-- **C69** (coaxial pipes).  Both resistances are defined at every flow rate and exceed that of the pipe wall by the resistances of
the convection at the wetted surfaces, and the two flow arrangements are the same function with the two
indices exchanged. -/
theorem fluid_coaxial (m : ℝ) (d : Dim) (eps : ℝ) (fl : Fluid) (h : COk d 1 0 eps fl) :
    (∃ R, (∀ R', FluidToPipe .coaxialIn m d eps fl R' ↔ R' = R) ∧ ∃ h, Annulus m (d.rOut 1) (d.rIn 0) fl eps h ∧ 0 < h.2 ∧
      h.2 * (2 * π * d.rIn 0) * (R - log (d.rOut 0 / d.rIn 0) / (2 * π * d.kp 0)) = 1) ∧
    (∃ R, (∀ R', FluidToFluid .coaxialIn m d eps fl R' ↔ R' = .ok R) ∧ ∃ h ha, Circular m (d.rIn 1) fl eps h ∧ Annulus m (d.rOut 1) (d.rIn 0) fl eps ha ∧ 0 < h ∧ 0 < ha.1 ∧
      R - log (d.rOut 1 / d.rIn 1) / (2 * π * d.kp 1) = (h * (2 * π * d.rIn 1))⁻¹ + (ha.1 * (2 * π * d.rOut 1))⁻¹) ∧
    (∀ R, FluidToPipe .coaxialOut m d.swap eps fl R ↔ FluidToPipe .coaxialIn m d eps fl R) ∧
    (∀ R, FluidToFluid .coaxialOut m d.swap eps fl R ↔ FluidToFluid .coaxialIn m d eps fl R) := by
  have hpi := pi_pos
  obtain ⟨c, hc, hp⟩ := circular_at (m := m) h.rIn h.fluid h.rough h.rough'
  have hro : 0 < d.rOut 1 := h.rIn.trans h.rOut
  have hri : 0 < d.rIn 0 := hro.trans h.gap
  obtain ⟨a, ha, ha1, ha2⟩ := annulus_at (m := m) hro h.gap h.fluid h.rough h.rough''
  refine ⟨⟨conduction (d.rIn 0) (d.rOut 0) (d.kp 0) + 1 / (a.2 * 2 * π * d.rIn 0), fun R' => ?_, a, (ha a).mpr rfl, ha2, ?_⟩,
    ⟨1 / (c * 2 * π * d.rIn 1) + conduction (d.rIn 1) (d.rOut 1) (d.kp 1) + 1 / (a.1 * 2 * π * d.rOut 1), fun R' => ?_, c, a, (hc c).mpr rfl, (ha a).mpr rfl, hp, ha1, ?_⟩, fun R => Iff.rfl, fun R => Iff.rfl⟩
  · simp only [FluidToPipe, ha, exists_eq_left]
  · unfold conduction
    field_simp
    ring
  · simp only [FluidToFluid, hc, ha]
    constructor
    · rintro ⟨_, _, rfl, rfl, h⟩; exact h
    · intro h; exact ⟨_, _, rfl, rfl, h⟩
  · have h1 := h.rIn
    unfold conduction
    field_simp
    ring

/-- **C69** (unsupported types).  There is no fluid to fluid resistance of U-tubes: the call raises. -/
theorem fluid_to_fluid_error (t : PipeType) (m : ℝ) (d : Dim) (eps : ℝ) (fl : Fluid) (R : Except Err ℝ) (ht : t ≠ .coaxialIn) (ht' : t ≠ .coaxialOut) :
    FluidToFluid t m d eps fl R ↔ R = .error .value := by
  cases t <;> first | exact absurd rfl ht | exact absurd rfl ht' | exact Iff.rfl

/-- Non-vacuity. -/
example : UOk ⟨fun _ => 0.013, fun _ => 0.016, fun _ => 0.4⟩ (1 / 10 ^ 6) water :=
  ⟨water_ok, by norm_num, by norm_num, by norm_num, by norm_num, by norm_num⟩
example : COk ⟨![0.05, 0.02], ![0.055, 0.025], ![0.4, 0.4]⟩ 1 0 (1 / 10 ^ 6) water :=
  ⟨water_ok, by norm_num, by norm_num, by norm_num, by norm_num, by norm_num, by norm_num, by norm_num, by norm_num, by norm_num⟩

end Verif.Pipe.Conv
