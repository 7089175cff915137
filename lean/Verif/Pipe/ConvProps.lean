import Verif.Pipe.ConvLemmas

/-!
# Properties C48, C49, C68, C69: friction factor, convection coefficients and fluid resistances
-/

noncomputable section

namespace Verif.Pipe.Conv

open Real

/-- The Colebrook-White equation. -/
def Colebrook (E Re f : ℝ) : Prop := 0 < f ∧ 1 / √f = -2 * logb 10 (E / 3.7 + 2.51 / (Re * √f))

theorem colebrook_iff {E Re f : ℝ} : Colebrook E Re f ↔ 0 < f ∧ 1 / √f = cg (E / 3.7) (2.51 / Re) (1 / √f) := by
  unfold Colebrook cg
  rw [div_mul_div_comm, mul_one]

/-- Root of the Colebrook-White equation in `1/√f`. -/
theorem root_at {E Re : ℝ} (hE : 0 ≤ E) (hE' : E ≤ 1 / 2) (hRe : 2300 ≤ Re) : ∃ x, 1 ≤ x ∧ x = cg (E / 3.7) (2.51 / Re) x := by
  obtain ⟨c1, c2, c3, c4⟩ := coeff_ok hE hE' hRe
  obtain ⟨x, h1, _, h2⟩ := root_exists c1 c2 c3 c4
  exact ⟨x, h1, h2⟩

/-- Result of the loop in terms of the root. -/
theorem friction_root {E Re tol f x : ℝ} (hE : 0 ≤ E) (hE' : E ≤ 1 / 2) (hRe : 2300 ≤ Re) (ht : 0 < tol) (ht' : tol ≤ 1 / 2) (hx : 0 < x)
    (hr : x = cg (E / 3.7) (2.51 / Re) x) (hf : FrictionAt E Re tol f) : ∃ y, 1 ≤ y ∧ f = 1 / y ^ 2 ∧ |y - x| ≤ tol := by
  obtain ⟨c1, c2, c3, c4⟩ := coeff_ok hE hE' hRe
  unfold FrictionAt at hf
  rw [if_neg (by linarith)] at hf
  obtain ⟨s, hs, rfl⟩ := hf
  obtain ⟨x', y, h1, h2, h3, h4, h5⟩ := loop_result hE hE' hRe ht ht' hs
  exact ⟨y, h2, h4, (cphi_abs c1 c2 hx (by linarith) hr).trans (residual c1 c2 ht ht' h1 h2 h3 h5)⟩

/-- The friction factor is defined, and unique. -/
theorem friction_defined {E Re tol : ℝ} (hE : 0 ≤ E) (hE' : E ≤ 1 / 2) (ht : 0 < tol) : ∃! f, FrictionAt E Re tol f := by
  unfold FrictionAt
  by_cases h : Re < 2300
  · simp only [if_pos h]; exact ⟨_, rfl, fun _ h => h⟩
  · simp only [if_neg h]
    obtain ⟨n, hn⟩ := loop_ends hE hE' (not_lt.mp h) ht
    obtain ⟨k, _, _, hk⟩ := Loop.exists_of_iterate _ n hn
    refine ⟨_, ⟨_, hk, rfl⟩, ?_⟩
    rintro f ⟨s, hs, rfl⟩
    rw [Loop.det hs hk]

theorem reynolds_eq {m r : ℝ} {fl : Fluid} (hr : 0 < r) (hrho : 0 < fl.rho) : reynolds m r fl = 4 * |m| / (π * (2 * r) * fl.mu) := by
  unfold reynolds
  have := pi_pos
  field_simp
  ring

/-- **C68.**  For pipes with a roughness up to the radius, the friction factor is defined for every flow rate.  In laminar flow it is `64/Re`, and otherwise
it differs from the unique solution of the Colebrook-White equation by at most the tolerance, measured on `1/√f`. -/
theorem friction_colebrook (m r : ℝ) (fl : Fluid) (eps tol : ℝ) (hr : 0 < r) (hrho : 0 < fl.rho) (he : 0 ≤ eps) (he' : eps ≤ r) (ht : 0 < tol) (ht' : tol ≤ 1 / 2) :
    let Re := 4 * |m| / (π * (2 * r) * fl.mu)
    ∃ f, (∀ f', Friction m r fl eps tol f' ↔ f' = f) ∧ (Re < 2300 → f = 64 / Re) ∧
      (2300 ≤ Re → 0 < f ∧ ∃ fs, (∀ f', Colebrook (eps / (2 * r)) Re f' ↔ f' = fs) ∧ |1 / √f - 1 / √fs| ≤ tol) := by
  intro Re
  have hE : 0 ≤ eps / (2 * r) := by positivity
  have hE' : eps / (2 * r) ≤ 1 / 2 := by rw [div_le_div_iff₀ (by positivity) two_pos]; linarith
  obtain ⟨f, hf, hu⟩ := friction_defined (E := eps / (2 * r)) (Re := Re) hE hE' ht
  refine ⟨f, fun f' => ?_, fun h => ?_, fun h => ?_⟩
  · unfold Friction
    rw [reynolds_eq hr hrho]
    exact ⟨fun h => hu f' h, fun h => h ▸ hf⟩
  · unfold FrictionAt at hf; rwa [if_pos h] at hf
  · obtain ⟨x, hx1, hx⟩ := root_at hE hE' h
    obtain ⟨y, hy1, hy, hd⟩ := friction_root hE hE' h ht ht' (by linarith) hx hf
    have hs : ∀ z : ℝ, 1 ≤ z → 1 / √(1 / z ^ 2) = z := fun z hz => by
      rw [sqrt_div zero_le_one, sqrt_one, sqrt_sq (by linarith), one_div_one_div]
    refine ⟨by rw [hy]; positivity, 1 / x ^ 2, fun f' => ?_, by rw [hy, hs y hy1, hs x hx1]; exact hd⟩
    obtain ⟨c1, c2, _, _⟩ := coeff_ok hE hE' h
    rw [colebrook_iff]
    constructor
    · rintro ⟨h0, h1⟩
      have := root_unique c1 c2 (by linarith) (by positivity) hx h1
      rw [← this, div_pow, one_pow, one_div_one_div, sq_sqrt h0.le]
    · rintro rfl
      exact ⟨by positivity, by rw [hs x hx1]; exact hx⟩

/-- Non-vacuity: water at 0.2 kg/s in a pipe of radius 13 mm is turbulent. -/
def water : Fluid := ⟨1 / 1000, 1000, 6 / 10, 4200⟩

example : (2300 : ℝ) ≤ 4 * |0.2| / (π * (2 * 0.013) * water.mu) := by
  have h := pi_le_four
  have h0 := pi_pos
  rw [le_div_iff₀ (by unfold water; positivity), abs_of_pos (by norm_num)]
  unfold water
  norm_num
  nlinarith

/-! ### Convection -/

/-- Gnielinski correlation in terms of `y = 1/√f`. -/
def gn (Re Pr y : ℝ) : ℝ := 0.125 * (Re - 1000) * Pr / (y ^ 2 + 12.7 * √0.125 * (Pr ^ ((2 : ℝ) / 3) - 1) * y)

theorem pr_k {Pr : ℝ} (h : 1 ≤ Pr) : 0 ≤ 12.7 * √0.125 * (Pr ^ ((2 : ℝ) / 3) - 1) := by
  have := one_le_rpow h (show (0 : ℝ) ≤ 2 / 3 by norm_num)
  have h2 := sqrt_nonneg (0.125 : ℝ)
  exact mul_nonneg (mul_nonneg (by norm_num) h2) (by linarith)

theorem gnielinski_eq {Re Pr y : ℝ} (hy : 0 < y) (hPr : 1 ≤ Pr) : gnielinski Re Pr (1 / y ^ 2) = gn Re Pr y := by
  unfold gnielinski gn
  have h1 : √(0.125 * (1 / y ^ 2)) = √0.125 / y := by
    rw [mul_one_div, sqrt_div (by norm_num), sqrt_sq hy.le]
  have hk := pr_k hPr
  rw [h1]
  have e : 1 + 12.7 * (√0.125 / y) * (Pr ^ ((2 : ℝ) / 3) - 1) = (y ^ 2 + 12.7 * √0.125 * (Pr ^ ((2 : ℝ) / 3) - 1) * y) / y ^ 2 := by
    field_simp
  rw [e, div_div_eq_mul_div]
  congr 1
  field_simp

theorem gn_pos {Re Pr y : ℝ} (hy : 0 < y) (hPr : 1 ≤ Pr) (hRe : 1000 < Re) : 0 < gn Re Pr y := by
  unfold gn
  have hk := pr_k hPr
  have : 0 < y ^ 2 + 12.7 * √0.125 * (Pr ^ ((2 : ℝ) / 3) - 1) * y := by positivity
  have h2 : 0 < Re - 1000 := by linarith
  positivity

theorem gn_close {Re Pr x y tol : ℝ} (hx : 1 ≤ x) (hy : 1 ≤ y) (hPr : 1 ≤ Pr) (hRe : 1000 < Re) (ht : tol ≤ 1) (h : |y - x| ≤ tol) :
    |gn Re Pr y - gn Re Pr x| ≤ 3 * tol * gn Re Pr x := by
  have hg := gn_pos (y := x) (by linarith) hPr hRe
  unfold gn at *
  have hk := pr_k hPr
  generalize 12.7 * √0.125 * (Pr ^ ((2 : ℝ) / 3) - 1) = k at *
  have h2 : 0 < 0.125 * (Re - 1000) * Pr := by
    have : 0 < Re - 1000 := by linarith
    positivity
  generalize 0.125 * (Re - 1000) * Pr = K at *
  have hX : 0 < x ^ 2 + k * x := by positivity
  have hY : 0 < y ^ 2 + k * y := by positivity
  have e : K / (y ^ 2 + k * y) - K / (x ^ 2 + k * x) = K / (x ^ 2 + k * x) * ((x - y) * (x + y + k) / (y ^ 2 + k * y)) := by
    field_simp
    ring
  rw [e, abs_mul, abs_of_pos hg, mul_comm]
  refine mul_le_mul_of_nonneg_right ?_ hg.le
  have ht0 : 0 ≤ tol := (abs_nonneg _).trans h
  rw [abs_div, abs_of_pos hY, div_le_iff₀ hY, abs_mul, abs_sub_comm, abs_of_pos (show 0 < x + y + k by linarith)]
  have h3 : x ≤ y + tol := by have := (abs_le.mp h).1; linarith
  have h4 : x + y + k ≤ 3 * (y ^ 2 + k * y) := by nlinarith
  calc |y - x| * (x + y + k) ≤ tol * (3 * (y ^ 2 + k * y)) := by gcongr
    _ = 3 * tol * (y ^ 2 + k * y) := by ring

/-- Interpolation weight. -/
def wt (Re : ℝ) : ℝ := min 1 (max 0 ((Re - 2300) / 1700))

/-- Nusselt number in the three regimes. -/
def nu (lam Re Pr y : ℝ) : ℝ := (1 - wt Re) * lam + wt Re * gn (max Re 4000) Pr y

theorem wt_mem (Re : ℝ) : 0 ≤ wt Re ∧ wt Re ≤ 1 := ⟨le_min zero_le_one (le_max_left _ _), min_le_left _ _⟩

theorem nu_hi {lam Re Pr y : ℝ} (h : Re ≥ 4000) : nu lam Re Pr y = gn Re Pr y := by
  have : wt Re = 1 := by
    unfold wt
    refine min_eq_left (le_max_of_le_right ?_)
    rw [le_div_iff₀ (by norm_num)]; linarith
  unfold nu
  rw [this, max_eq_left h]; ring

theorem nu_mid {lam Re Pr y : ℝ} (h : ¬ Re ≥ 4000) (h' : 2300 < Re) : nu lam Re Pr y = (1 - (Re - 2300) / (4000 - 2300)) * lam + (Re - 2300) / (4000 - 2300) * gn 4000 Pr y := by
  have : wt Re = (Re - 2300) / (4000 - 2300) := by
    unfold wt
    have e : ((4000 : ℝ) - 2300) = 1700 := by norm_num
    rw [e, max_eq_right (div_nonneg (by linarith) (by norm_num)), min_eq_right]
    rw [div_le_one (by norm_num)]; linarith
  unfold nu
  rw [this, max_eq_right (by linarith)]

theorem nu_lo {lam Re Pr y : ℝ} (h' : ¬ 2300 < Re) : nu lam Re Pr y = lam := by
  have : wt Re = 0 := by
    unfold wt
    rw [max_eq_left, min_eq_right zero_le_one]
    exact div_nonpos_of_nonpos_of_nonneg (by linarith) (by norm_num)
  unfold nu
  rw [this]; ring

theorem nu_close {lam Re Pr x y tol : ℝ} (hl : 0 < lam) (hx : 1 ≤ x) (hy : 1 ≤ y) (hPr : 1 ≤ Pr) (ht : tol ≤ 1) (h : |y - x| ≤ tol) :
    |nu lam Re Pr y - nu lam Re Pr x| ≤ 3 * tol * nu lam Re Pr x := by
  obtain ⟨h0, h1⟩ := wt_mem Re
  have hg := gn_close hx hy hPr (show 1000 < max Re 4000 from lt_of_lt_of_le (by norm_num) (le_max_right _ _)) ht h
  have ht0 : 0 ≤ tol := (abs_nonneg _).trans h
  unfold nu
  have e : (1 - wt Re) * lam + wt Re * gn (max Re 4000) Pr y - ((1 - wt Re) * lam + wt Re * gn (max Re 4000) Pr x) = wt Re * (gn (max Re 4000) Pr y - gn (max Re 4000) Pr x) := by ring
  rw [e, abs_mul, abs_of_nonneg h0]
  have h3 := mul_le_mul_of_nonneg_left hg h0
  have h4 : 0 ≤ 3 * tol * ((1 - wt Re) * lam) := mul_nonneg (by linarith) (mul_nonneg (by linarith) hl.le)
  linarith

theorem nu_pos {lam Re Pr x : ℝ} (hl : 0 < lam) (hx : 1 ≤ x) (hPr : 1 ≤ Pr) : 0 < nu lam Re Pr x := by
  obtain ⟨h0, h1⟩ := wt_mem Re
  have hg := gn_pos (y := x) (by linarith) hPr (show 1000 < max Re 4000 from lt_of_lt_of_le (by norm_num) (le_max_right _ _))
  unfold nu
  rcases h0.eq_or_lt with h | h
  · rw [← h]; linarith
  · have : 0 ≤ (1 - wt Re) * lam := mul_nonneg (by linarith) hl.le
    have := mul_pos h hg
    linarith

/-! ### Continuity of the root -/

/-- The root at `max Re 2300`. -/
def rootX (E Re : ℝ) : ℝ := open Classical in if h : ∃ x, 1 ≤ x ∧ x = cg (E / 3.7) (2.51 / max Re 2300) x then h.choose else 1

theorem rootX_spec {E : ℝ} (hE : 0 ≤ E) (hE' : E ≤ 1 / 2) (Re : ℝ) : 1 ≤ rootX E Re ∧ rootX E Re = cg (E / 3.7) (2.51 / max Re 2300) (rootX E Re) := by
  have h := root_at hE hE' (le_max_right Re 2300)
  unfold rootX
  rw [dif_pos h]
  exact h.choose_spec

theorem cg_re {a x R S : ℝ} (ha : 0 ≤ a) (hx : 0 < x) (hR : 0 < R) (hRS : R ≤ S) : 0 ≤ cg a (2.51 / S) x - cg a (2.51 / R) x ∧
    cg a (2.51 / S) x - cg a (2.51 / R) x ≤ cc * (log S - log R) := by
  have hS := hR.trans_le hRS
  have hc := cc_pos
  rw [cg_eq, cg_eq]
  have h1 : 0 < a + 2.51 / R * x := by positivity
  have h2 : 0 < a + 2.51 / S * x := by positivity
  have h3 : a + 2.51 / S * x ≤ a + 2.51 / R * x := by gcongr
  have h4 : log (a + 2.51 / S * x) ≤ log (a + 2.51 / R * x) := log_le_log h2 h3
  have h5 : log (a + 2.51 / R * x) - log (a + 2.51 / S * x) ≤ log S - log R := by
    rw [← log_div h1.ne' h2.ne', ← log_div hS.ne' hR.ne']
    refine log_le_log (div_pos h1 h2) ?_
    rw [div_le_div_iff₀ h2 hR]
    have e1 : 2.51 / R * x * R = 2.51 * x := by field_simp
    have e2 : S * (2.51 / S * x) = 2.51 * x := by field_simp
    nlinarith
  constructor <;> nlinarith

theorem rootX_lip {E : ℝ} (hE : 0 ≤ E) (hE' : E ≤ 1 / 2) (R S : ℝ) : |rootX E R - rootX E S| ≤ cc * |log (max R 2300) - log (max S 2300)| := by
  have key : ∀ R S : ℝ, max R 2300 ≤ max S 2300 → |rootX E R - rootX E S| ≤ cc * |log (max R 2300) - log (max S 2300)| := by
    intro R S h
    obtain ⟨r1, r2⟩ := rootX_spec hE hE' R
    obtain ⟨s1, s2⟩ := rootX_spec hE hE' S
    obtain ⟨c1, c2, _, _⟩ := coeff_ok hE hE' (le_max_right R 2300)
    have hR : 0 < max R 2300 := lt_of_lt_of_le (by norm_num) (le_max_right _ _)
    have h1 := cphi_abs c1 c2 (by linarith) (show 0 < rootX E S by linarith) r2
    have h2 := cg_re c1 (show 0 < rootX E S by linarith) hR h
    rw [← s2] at h2
    rw [abs_of_nonneg h2.1] at h1
    rw [abs_sub_comm, abs_sub_comm (log _)]
    refine h1.trans (h2.2.trans ?_)
    exact mul_le_mul_of_nonneg_left (le_abs_self _) cc_pos.le
  rcases le_total (max R 2300) (max S 2300) with h | h
  · exact key R S h
  · rw [abs_sub_comm, abs_sub_comm (log _)]; exact key S R h

theorem rootX_continuous {E : ℝ} (hE : 0 ≤ E) (hE' : E ≤ 1 / 2) : Continuous (rootX E) := by
  rw [continuous_iff_continuousAt]
  intro R
  have hl : Continuous fun S : ℝ => log (max S 2300) := Continuous.log (by fun_prop) fun S => (lt_of_lt_of_le (by norm_num) (le_max_right S 2300)).ne'
  have h0 : Filter.Tendsto (fun S => cc * |log (max S 2300) - log (max R 2300)|) (nhds R) (nhds 0) := by
    have : Continuous fun S => cc * |log (max S 2300) - log (max R 2300)| := by fun_prop
    have := this.tendsto R
    simpa using this
  rw [ContinuousAt, tendsto_iff_dist_tendsto_zero]
  exact squeeze_zero (fun _ => dist_nonneg) (fun S => by rw [Real.dist_eq]; exact rootX_lip hE hE' S R) h0

theorem wt_continuous : Continuous wt := by unfold wt; fun_prop

theorem nu_continuous {lam Pr : ℝ} (hPr : 1 ≤ Pr) {Re X : ℝ → ℝ} (hRe : Continuous Re) (hX : Continuous X) (h1 : ∀ m, 1 ≤ X m) : Continuous fun m => nu lam (Re m) Pr (X m) := by
  have hw := wt_continuous.comp hRe
  have hk := pr_k hPr
  unfold nu gn
  refine Continuous.add (Continuous.mul (continuous_const.sub hw) continuous_const) (Continuous.mul hw (Continuous.div (by fun_prop) (by fun_prop) fun m => ?_))
  have := h1 m
  have : 0 < X m := by linarith
  positivity

/-! ### C48 -/

/-- Positive fluid properties, with a Prandtl number of at least one (all the heat carrier fluids of the library). -/
structure Fluid.Ok (fl : Fluid) : Prop where
  mu : 0 < fl.mu
  rho : 0 < fl.rho
  k : 0 < fl.k
  pr : 1 ≤ fl.cp * fl.mu / fl.k

theorem water_ok : water.Ok := ⟨by norm_num [water], by norm_num [water], by norm_num [water], by norm_num [water]⟩

/-- **C48** (sign of the flow). -/
theorem circular_even (m r : ℝ) (fl : Fluid) (eps h : ℝ) : Circular (-m) r fl eps h ↔ Circular m r fl eps h := by
  unfold Circular Friction reynolds
  rw [abs_neg]

theorem annulus_even (m ri ro : ℝ) (fl : Fluid) (eps : ℝ) (h : ℝ × ℝ) : Annulus (-m) ri ro fl eps h ↔ Annulus m ri ro fl eps h := by
  unfold Annulus Friction reynolds reynoldsA
  rw [abs_neg]

/-- The Nusselt number of the code is `nu`. -/
theorem nu_code {lam Re Pr f y : ℝ} (hy : 2300 < Re → 0 < y ∧ f = 1 / y ^ 2) (hPr : 1 ≤ Pr) :
    (if Re ≥ 4000 then gnielinski Re Pr f
      else if 2300 < Re then (1 - (Re - 2300) / (4000 - 2300)) * lam + (Re - 2300) / (4000 - 2300) * gnielinski 4000 Pr f else lam) = nu lam Re Pr y := by
  split_ifs with h1 h2
  · obtain ⟨h3, rfl⟩ := hy (by linarith)
    rw [gnielinski_eq h3 hPr, nu_hi h1]
  · obtain ⟨h3, rfl⟩ := hy h2
    rw [gnielinski_eq h3 hPr, nu_mid h1 h2]
  · rw [nu_lo h2]

/-- Common part of C48: existence, uniqueness and closeness of the Nusselt numbers. -/
theorem friction_y {E ReF : ℝ} (hE : 0 ≤ E) (hE' : E ≤ 1 / 2) : ∃ f y, (∀ f', FrictionAt E ReF (1 / 10 ^ 6) f' ↔ f' = f) ∧ 1 ≤ y ∧
    |y - rootX E ReF| ≤ 1 / 10 ^ 6 ∧ (2300 ≤ ReF → f = 1 / y ^ 2) := by
  obtain ⟨f, hf, hu⟩ := friction_defined (E := E) (Re := ReF) (tol := 1 / 10 ^ 6) hE hE' (by norm_num)
  obtain ⟨r1, r2⟩ := rootX_spec hE hE' ReF
  by_cases h : 2300 ≤ ReF
  · rw [max_eq_left h] at r2
    obtain ⟨y, hy1, hy, hd⟩ := friction_root hE hE' h (by norm_num) (by norm_num) (by linarith) r2 hf
    exact ⟨f, y, fun f' => ⟨fun h => hu f' h, fun h => h ▸ hf⟩, hy1, hd, fun _ => hy⟩
  · exact ⟨f, rootX E ReF, fun f' => ⟨fun h => hu f' h, fun h => h ▸ hf⟩, r1, by rw [sub_self, abs_zero]; norm_num, fun h' => absurd h' h⟩

/-- A coefficient `h` that is defined at every flow rate, positive and within a relative error of `3·10⁻⁶` of a continuous function of the flow rate. -/
def Smooth (Coef : ℝ → ℝ → Prop) : Prop :=
  ∃ H : ℝ → ℝ, Continuous H ∧ (∀ m, 0 < H m) ∧ ∀ m, ∃ h, (∀ h', Coef m h' ↔ h' = h) ∧ 0 < h ∧ |h - H m| ≤ 3 / 10 ^ 6 * H m

theorem pos_of_close {h H : ℝ} (hH : 0 < H) (hc : |h - H| ≤ 3 / 10 ^ 6 * H) : 0 < h := by
  have := (abs_le.mp hc).1
  nlinarith

theorem scaled_close {k D A B : ℝ} (hk : 0 < k) (hD : 0 < D) (h : |A - B| ≤ 3 * (1 / 10 ^ 6) * B) : |k * A / D - k * B / D| ≤ 3 / 10 ^ 6 * (k * B / D) := by
  have e : k * A / D - k * B / D = k / D * (A - B) := by ring
  have hp : 0 < k / D := div_pos hk hD
  rw [e, abs_mul, abs_of_pos hp]
  have := mul_le_mul_of_nonneg_left h hp.le
  calc _ ≤ _ := this
    _ = _ := by ring

/-- **C48** (circular pipes).  The convection coefficient is defined and positive for every flow rate, zero included, and has no jump: it follows a
continuous function of the flow rate up to the tolerance of the friction factor. -/
theorem circular_smooth (r : ℝ) (fl : Fluid) (eps : ℝ) (hr : 0 < r) (hfl : fl.Ok) (he : 0 ≤ eps) (he' : eps ≤ r) : Smooth fun m h => Circular m r fl eps h := by
  have hE : 0 ≤ eps / (2 * r) := by positivity
  have hE' : eps / (2 * r) ≤ 1 / 2 := by rw [div_le_div_iff₀ (by positivity) two_pos]; linarith
  have hPr : 1 ≤ prandtl fl := hfl.pr
  have hk := hfl.k
  have hre : Continuous fun m => reynolds m r fl := by
    have : (fun m => reynolds m r fl) = fun m => 4 * |m| / (π * (2 * r) * fl.mu) := by funext m; exact reynolds_eq hr hfl.rho
    rw [this]; fun_prop
  have h1 : ∀ m, 1 ≤ rootX (eps / (2 * r)) (reynolds m r fl) := fun m => (rootX_spec hE hE' _).1
  have hl : (0 : ℝ) < 3.66 := by norm_num
  refine ⟨fun m => fl.k * nu 3.66 (reynolds m r fl) (prandtl fl) (rootX (eps / (2 * r)) (reynolds m r fl)) / (2 * r), ?_, fun m => ?_, fun m => ?_⟩
  · exact ((nu_continuous hPr hre ((rootX_continuous hE hE').comp hre) h1).const_mul fl.k).div_const _
  · have := nu_pos (Re := reynolds m r fl) hl (h1 m) hPr
    positivity
  · obtain ⟨f, y, hf, hy1, hd, hfy⟩ := friction_y (E := eps / (2 * r)) (ReF := reynolds m r fl) hE hE'
    have hcl := scaled_close hk (show 0 < 2 * r by positivity) (nu_close (Re := reynolds m r fl) hl (h1 m) hy1 hPr (by norm_num) hd)
    refine ⟨fl.k * nu 3.66 (reynolds m r fl) (prandtl fl) y / (2 * r), fun h' => ?_, pos_of_close ?_ hcl, hcl⟩
    · unfold Circular Friction
      simp only [hf, exists_eq_left]
      rw [nu_code (y := y) (fun h => ⟨by linarith, hfy h.le⟩) hPr]
    · have := nu_pos (Re := reynolds m r fl) hl (h1 m) hPr
      positivity

/-! ### The annulus -/

/-- Reynolds number that the friction factor of the annulus is evaluated at. -/
theorem annulus_reynolds (m ri ro : ℝ) (fl : Fluid) (h : 0 ≤ ri) (h' : ri < ro) (hrho : 0 < fl.rho) :
    reynolds m (2 * (ro - ri) / 2) fl = (ro + ri) / (ro - ri) * reynoldsA m ri ro fl := by
  unfold reynolds reynoldsA
  have h1 : ro - ri ≠ 0 := by linarith
  have h2 : ro + ri ≠ 0 := by linarith
  have h3 : ro ^ 2 - ri ^ 2 ≠ 0 := by
    have : ro ^ 2 - ri ^ 2 = (ro - ri) * (ro + ri) := by ring
    rw [this]; exact mul_ne_zero h1 h2
  have := pi_ne_zero
  have hr := hrho.ne'
  rw [mul_div_cancel_left₀ _ (two_ne_zero)]
  have e : ro ^ 2 - ri ^ 2 = (ro - ri) * (ro + ri) := by ring
  rw [e]
  field_simp

/-- **C48** (annulus).  Both convection coefficients of the annulus, likewise. -/
theorem annulus_smooth (ri ro : ℝ) (fl : Fluid) (eps : ℝ) (hri : 0 < ri) (hro : ri < ro) (hfl : fl.Ok) (he : 0 ≤ eps) (he' : eps ≤ ro - ri) :
    (∀ m, ∃ h, ∀ h', Annulus m ri ro fl eps h' ↔ h' = h) ∧
    Smooth (fun m h => ∃ h', Annulus m ri ro fl eps (h, h')) ∧ Smooth (fun m h => ∃ h', Annulus m ri ro fl eps (h', h)) := by
  have hrh : 2 * (ro - ri) / 2 = ro - ri := by ring
  have hd0 : 0 < ro - ri := by linarith
  have hE : 0 ≤ eps / (2 * (2 * (ro - ri) / 2)) := by rw [hrh]; positivity
  have hE' : eps / (2 * (2 * (ro - ri) / 2)) ≤ 1 / 2 := by rw [hrh, div_le_div_iff₀ (by positivity) two_pos]; linarith
  have hPr : 1 ≤ prandtl fl := hfl.pr
  have hk := hfl.k
  have hreF : Continuous fun m => reynolds m (2 * (ro - ri) / 2) fl := by
    have : (fun m => reynolds m (2 * (ro - ri) / 2) fl) = fun m => 4 * |m| / (π * (2 * (2 * (ro - ri) / 2)) * fl.mu) := by
      funext m; exact reynolds_eq (by rw [hrh]; exact hd0) hfl.rho
    rw [this]; fun_prop
  have hre : Continuous fun m => reynoldsA m ri ro fl := by
    unfold reynoldsA; fun_prop
  have hle : ∀ m, 2300 < reynoldsA m ri ro fl → 2300 ≤ reynolds m (2 * (ro - ri) / 2) fl := fun m hm => by
    rw [annulus_reynolds m ri ro fl hri.le hro hfl.rho]
    have : 1 ≤ (ro + ri) / (ro - ri) := by rw [le_div_iff₀ hd0]; linarith
    nlinarith
  generalize hEE : eps / (2 * (2 * (ro - ri) / 2)) = E at *
  have h1 : ∀ m, 1 ≤ rootX E (reynolds m (2 * (ro - ri) / 2) fl) := fun m => (rootX_spec hE hE' _).1
  have hrs : 0 < ri / ro := div_pos hri (by linarith)
  have hl1 : 0 < 3.66 + 1.2 * (ri / ro) ^ (-0.8 : ℝ) := by have := rpow_pos_of_pos hrs (-0.8 : ℝ); positivity
  have hl2 : 0 < 3.66 + 1.2 * (ri / ro) ^ (0.5 : ℝ) := by have := rpow_pos_of_pos hrs (0.5 : ℝ); positivity
  -- the code in terms of `nu`
  have hcode : ∀ m, ∃ y, 1 ≤ y ∧ |y - rootX E (reynolds m (2 * (ro - ri) / 2) fl)| ≤ 1 / 10 ^ 6 ∧ ∀ h', Annulus m ri ro fl eps h' ↔
      h' = (fl.k * nu (3.66 + 1.2 * (ri / ro) ^ (-0.8 : ℝ)) (reynoldsA m ri ro fl) (prandtl fl) y / (2 * (ro - ri)),
        fl.k * nu (3.66 + 1.2 * (ri / ro) ^ (0.5 : ℝ)) (reynoldsA m ri ro fl) (prandtl fl) y / (2 * (ro - ri))) := fun m => by
    obtain ⟨f, y, hf, hy1, hd, hfy⟩ := friction_y (E := E) (ReF := reynolds m (2 * (ro - ri) / 2) fl) hE hE'
    refine ⟨y, hy1, hd, fun h' => ?_⟩
    have hy : 2300 < reynoldsA m ri ro fl → 0 < y ∧ f = 1 / y ^ 2 := fun h => ⟨by linarith, hfy (hle m h)⟩
    have n1 := nu_code (lam := 3.66 + 1.2 * (ri / ro) ^ (-0.8 : ℝ)) hy hPr
    have n2 := nu_code (lam := 3.66 + 1.2 * (ri / ro) ^ (0.5 : ℝ)) hy hPr
    unfold Annulus Friction
    simp only [hEE, hf, exists_eq_left]
    rw [← n1, ← n2]
    split_ifs <;> rfl
  have hsm : ∀ lam, 0 < lam → ∀ Coef : ℝ → ℝ → Prop, (∀ m y, 1 ≤ y → |y - rootX E (reynolds m (2 * (ro - ri) / 2) fl)| ≤ 1 / 10 ^ 6 →
      (∀ h', Annulus m ri ro fl eps h' ↔
      h' = (fl.k * nu (3.66 + 1.2 * (ri / ro) ^ (-0.8 : ℝ)) (reynoldsA m ri ro fl) (prandtl fl) y / (2 * (ro - ri)),
        fl.k * nu (3.66 + 1.2 * (ri / ro) ^ (0.5 : ℝ)) (reynoldsA m ri ro fl) (prandtl fl) y / (2 * (ro - ri)))) →
      ∀ h', Coef m h' ↔ h' = fl.k * nu lam (reynoldsA m ri ro fl) (prandtl fl) y / (2 * (ro - ri))) → Smooth Coef := by
    intro lam hl Coef hC
    refine ⟨fun m => fl.k * nu lam (reynoldsA m ri ro fl) (prandtl fl) (rootX E (reynolds m (2 * (ro - ri) / 2) fl)) / (2 * (ro - ri)), ?_, fun m => ?_, fun m => ?_⟩
    · exact ((nu_continuous hPr hre ((rootX_continuous hE hE').comp hreF) h1).const_mul fl.k).div_const _
    · have := nu_pos (Re := reynoldsA m ri ro fl) hl (h1 m) hPr
      positivity
    · obtain ⟨y, hy1, hd, hy⟩ := hcode m
      have hcl := scaled_close hk (show 0 < 2 * (ro - ri) by positivity) (nu_close (Re := reynoldsA m ri ro fl) hl (h1 m) hy1 hPr (by norm_num) hd)
      refine ⟨_, hC m y hy1 hd hy, pos_of_close ?_ hcl, hcl⟩
      have := nu_pos (Re := reynoldsA m ri ro fl) hl (h1 m) hPr
      positivity
  refine ⟨fun m => ?_, hsm _ hl1 _ fun m y _ _ hy h' => ?_, hsm _ hl2 _ fun m y _ _ hy h' => ?_⟩
  · obtain ⟨y, _, _, hy⟩ := hcode m
    exact ⟨_, hy⟩
  · simp only [hy, Prod.mk.injEq, exists_and_left, exists_eq, and_true]
  · simp only [hy, Prod.mk.injEq, exists_and_right, exists_eq, true_and]

/-- Non-vacuity: water in pipes of 13 mm, and in an annulus of 25 to 50 mm. -/
example : Smooth fun m h => Circular m 0.013 water (1 / 10 ^ 6) h := circular_smooth _ _ _ (by norm_num) water_ok (by norm_num) (by norm_num)
example : Smooth fun m h => ∃ h', Annulus m 0.025 0.05 water (1 / 10 ^ 6) (h, h') :=
  (annulus_smooth _ _ _ _ (by norm_num) (by norm_num) water_ok (by norm_num) (by norm_num)).2.1

end Verif.Pipe.Conv
