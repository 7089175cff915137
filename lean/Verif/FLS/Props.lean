import Verif.FLS.Fubini
import Verif.Bore.DistanceProps

/-!
# Properties C20, C21, C23, C71: reciprocity, superposition of real and image sources, vectors of times, integral of point sources
-/

noncomputable section

namespace Verif.FLS

open Real MeasureTheory

/-! ### Specification -/

/-- Source and receiver exchanged. -/
def Pair.swap (g : Pair) : Pair := ⟨g.dis, g.H2, g.D2, g.H1, g.D1⟩

/-- Complementary error function. -/
def erfc (x : ℝ) : ℝ := 2 / √π * ∫ u in Set.Ioi x, exp (-u ^ 2)

/-- `4 π k ΔT / q` at time `t` and distance `ρ` of a continuous point source of strength `q`. -/
def pointSource (alpha t ρ : ℝ) : ℝ := erfc (ρ / √(4 * alpha * t)) / ρ

/-- The line source from depth `D1` to `D1 + H1`, at depth `z` and distance `d`. -/
def lineAt (alpha t d D1 H1 z : ℝ) : ℝ := ∫ w in D1..D1 + H1, pointSource alpha t √(d ^ 2 + (z - w) ^ 2)

/-- Its image above ground, from depth `-D1 - H1` to `-D1`. -/
def imageAt (alpha t d D1 H1 z : ℝ) : ℝ := ∫ w in (-D1 - H1)..-D1, pointSource alpha t √(d ^ 2 + (z - w) ^ 2)

/-- Mean over the receiver. -/
def meanOver (D2 H2 : ℝ) (T : ℝ → ℝ) : ℝ := (∫ z in D2..D2 + H2, T z) / H2

theorem erfc_eq (x : ℝ) : erfc x = 1 - erf x := by
  have := gauss_tail one_pos x
  simp only [one_pow, neg_one_mul, mul_one] at this
  unfold erfc
  rw [this]
  have := sqrt_pi_pos
  field_simp

/-! ### Theorems -/

/-- **C20**.  Reciprocity: `H2 h(1→2) = H1 h(2→1)` for every combination of sources and every time. -/
theorem reciprocity (t alpha : ℝ) (g : Pair) (h1 : g.H1 ≠ 0) (h2 : g.H2 ≠ 0) (rea img : Bool) :
    g.H2 * fls t alpha g rea img = g.H1 * fls t alpha g.swap rea img := by
  have hi : integrand g.swap rea img = integrand g rea img := by
    funext s
    have e1 : erfint ((g.D1 - g.D2 + g.H1) * s) = erfint ((g.D2 - g.D1 - g.H1) * s) := by rw [← erfint_neg]; congr 1; ring
    have e2 : erfint ((g.D1 - g.D2) * s) = erfint ((g.D2 - g.D1) * s) := by rw [← erfint_neg]; congr 1; ring
    have e3 : erfint ((g.D1 - g.D2 - g.H2) * s) = erfint ((g.D2 - g.D1 + g.H2) * s) := by rw [← erfint_neg]; congr 1; ring
    have e4 : erfint ((g.D1 - g.D2 + g.H1 - g.H2) * s) = erfint ((g.D2 - g.D1 + g.H2 - g.H1) * s) := by rw [← erfint_neg]; congr 1; ring
    have e5 : g.D1 + g.D2 + g.H1 = g.D2 + g.D1 + g.H1 := by ring
    have e6 : g.D1 + g.D2 = g.D2 + g.D1 := by ring
    have e7 : g.D1 + g.D2 + g.H2 = g.D2 + g.D1 + g.H2 := by ring
    have e8 : g.D1 + g.D2 + g.H1 + g.H2 = g.D2 + g.D1 + g.H2 + g.H1 := by ring
    cases rea <;> cases img <;> simp [integrand, Pair.swap, Pair.qRea, Pair.qImg, Pair.qAll, inner4, inner8, e1, e2, e3, e4]
    · rw [e8, e6]; left; ring
    · left; ring
    · rw [e8, e6]; left; ring
  unfold fls
  rw [hi, show g.swap.H2 = g.H1 from rfl]
  field_simp

/-- Reciprocity of the two calls for boreholes of the same radius: the distances are then the same. -/
theorem reciprocity_boreholes (t alpha : ℝ) (b1 b2 : Bore.Borehole) (hr : b1.rb = b2.rb) (h1 : b1.H ≠ 0) (h2 : b2.H ≠ 0) (rea img : Bool) :
    b2.H * fls t alpha (pairOf b1 b2) rea img = b1.H * fls t alpha (pairOf b2 b1) rea img := by
  have h := reciprocity t alpha (pairOf b1 b2) h1 h2 rea img
  have hd : (pairOf b1 b2).swap = pairOf b2 b1 := by
    have : b2.distance b1 = b1.distance b2 := by
      unfold Bore.Borehole.distance
      rw [hr]; congr 2; ring
    simp [pairOf, Pair.swap, this]
  rw [hd] at h
  exact h

/-- **C21**.  The solution with both sources is the sum of those with one source; it is zero with neither. -/
theorem real_plus_image (t alpha : ℝ) {g : Pair} (hg : g.Ok) :
    fls t alpha g true true = fls t alpha g true false + fls t alpha g false true ∧ fls t alpha g false false = 0 := by
  constructor
  · unfold fls quad
    rw [int_all hg (lower_nonneg _ _)]
    ring
  · unfold fls quad
    simp [integrand_none]

/-- **C71**.  With the real source, the solution is half the mean over the receiver of the temperature of the line of continuous point sources; with both
sources, the line of point sources of opposite strength above ground is added. -/
theorem line_of_points (t alpha : ℝ) {g : Pair} (hg : g.Ok) :
    fls t alpha g true false = meanOver g.D2 g.H2 (lineAt alpha t g.dis g.D1 g.H1) / 2 ∧
    fls t alpha g false true = -meanOver g.D2 g.H2 (imageAt alpha t g.dis g.D1 g.H1) / 2 ∧
    fls t alpha g true true = (meanOver g.D2 g.H2 (lineAt alpha t g.dis g.D1 g.H1) - meanOver g.D2 g.H2 (imageAt alpha t g.dis g.D1 g.H1)) / 2 := by
  have hp : ∀ ρ, pointSource alpha t ρ = (1 - erf (lower alpha t * ρ)) / ρ := fun ρ => by
    unfold pointSource lower; rw [erfc_eq]; congr 3; ring
  have h1 : fls t alpha g true false = meanOver g.D2 g.H2 (lineAt alpha t g.dis g.D1 g.H1) / 2 := by
    unfold fls quad
    simp only
    rw [int_rea hg (lower_nonneg _ _)]
    unfold meanOver lineAt
    simp only [hp]
    ring
  have h2 : fls t alpha g false true = -meanOver g.D2 g.H2 (imageAt alpha t g.dis g.D1 g.H1) / 2 := by
    unfold fls quad
    simp only
    rw [int_img hg (lower_nonneg _ _)]
    unfold meanOver imageAt
    simp only [hp]
    have : ∀ z : ℝ, ∫ w in (-g.D1 - g.H1)..-g.D1, (1 - erf (lower alpha t * √(g.dis ^ 2 + (z - w) ^ 2))) / √(g.dis ^ 2 + (z - w) ^ 2)
        = ∫ w in g.D1..g.D1 + g.H1, (1 - erf (lower alpha t * √(g.dis ^ 2 + (z + w) ^ 2))) / √(g.dis ^ 2 + (z + w) ^ 2) := fun z => by
      have := intervalIntegral.integral_comp_neg (a := g.D1) (b := g.D1 + g.H1)
        (fun w => (1 - erf (lower alpha t * √(g.dis ^ 2 + (z - w) ^ 2))) / √(g.dis ^ 2 + (z - w) ^ 2))
      simp only [sub_neg_eq_add, neg_add'] at this
      exact this.symm
    simp only [this]
    ring
  exact ⟨h1, h2, by rw [(real_plus_image t alpha hg).1, h1, h2]; ring⟩

/-- The same for boreholes: the first is the source, at the horizontal distance or at its radius, and the mean is over the second. -/
theorem line_of_points_boreholes (t alpha : ℝ) (b1 b2 : Bore.Borehole) (hr : 0 < b1.rb) (h1 : 0 ≤ b1.H) (h2 : 0 < b2.H) {d : ℝ}
    (hd : d = max b1.rb √((b1.x - b2.x) ^ 2 + (b1.y - b2.y) ^ 2)) :
    fls t alpha (pairOf b1 b2) true false = meanOver b2.D b2.H (lineAt alpha t d b1.D b1.H) / 2 ∧
    fls t alpha (pairOf b1 b2) true true = (meanOver b2.D b2.H (lineAt alpha t d b1.D b1.H) - meanOver b2.D b2.H (imageAt alpha t d b1.D b1.H)) / 2 := by
  have hg : (pairOf b1 b2).Ok := ⟨lt_max_of_lt_left hr, h1, h2⟩
  subst hd
  exact ⟨(line_of_points t alpha hg).1, (line_of_points t alpha hg).2.2⟩

example (t alpha : ℝ) := line_of_points_boreholes t alpha ⟨100, 4, 0.075, 0, 0, 0, 0⟩ ⟨150, 2, 0.075, 3, 4, 0, 0⟩ (by norm_num) (by norm_num) (by norm_num) rfl

/-- The temperature of the point source satisfies the heat equation in spherical coordinates: `r u` satisfies `∂t (r u) = α ∂r² (r u)`. -/
theorem pointSource_heat {alpha : ℝ} (ha : 0 < alpha) {t r : ℝ} (ht : 0 < t) (hr : 0 < r) :
    ∃ ut v : ℝ, ∃ ur : ℝ → ℝ, HasDerivAt (fun t => r * pointSource alpha t r) ut t ∧
      (∀ x, 0 < x → HasDerivAt (fun x => x * pointSource alpha t x) (ur x) x) ∧ HasDerivAt ur v r ∧ ut = alpha * v := by
  have hS : ∀ τ : ℝ, ∀ x : ℝ, 0 < x → x * pointSource alpha τ x = 1 - erf (x / √(4 * alpha * τ)) := fun τ x hx => by
    unfold pointSource; rw [erfc_eq]; field_simp
  obtain ⟨c, hc⟩ : ∃ c, c = √(4 * alpha * t) := ⟨_, rfl⟩
  have hc0 : 0 < c := by rw [hc]; exact sqrt_pos.mpr (by positivity)
  have hc2 : c ^ 2 = 4 * alpha * t := by rw [hc, sq_sqrt (by positivity)]
  have hdt : HasDerivAt (fun τ : ℝ => √(4 * alpha * τ)) (4 * alpha / (2 * c)) t := by
    rw [hc]
    exact ((hasDerivAt_id t).const_mul (4 * alpha) |>.congr_deriv (by ring)).sqrt (by positivity)
  refine ⟨2 / √π * exp (-(r / c) ^ 2) * (r * (4 * alpha / (2 * c)) / c ^ 2), 2 / √π * exp (-(r / c) ^ 2) * (2 * r / c ^ 2) / c,
    fun x => -(2 / √π * exp (-(x / c) ^ 2) * (1 / c)), ?_, ?_, ?_, ?_⟩
  · have h1 : HasDerivAt (fun τ : ℝ => r / √(4 * alpha * τ)) (-(r * (4 * alpha / (2 * c)) / c ^ 2)) t := by
      have := (hasDerivAt_const t r).div hdt (by rw [← hc]; exact hc0.ne')
      rw [← hc] at this
      refine this.congr_deriv ?_
      ring
    have h2 := (HasDerivAt.comp_of_eq (h₂ := erf) t (hasDerivAt_erf (r / c)) h1 (by rw [hc])).const_sub 1
    refine (h2.congr_of_eventuallyEq ?_).congr_deriv ?_
    · exact Filter.Eventually.of_forall fun τ => hS τ r hr
    · ring
  · intro x hx
    have h2 := (HasDerivAt.comp_of_eq (h₂ := erf) x (hasDerivAt_erf (x / c)) ((hasDerivAt_id x).div_const c) rfl).const_sub 1
    refine h2.congr_of_eventuallyEq ?_
    filter_upwards [lt_mem_nhds hx] with y hy
    rw [hS t y hy, ← hc]
    rfl
  · have h1 : HasDerivAt (fun x : ℝ => exp (-(x / c) ^ 2)) (exp (-(r / c) ^ 2) * (-(2 * (r / c) * (1 / c)))) r := by
      have := ((((hasDerivAt_id r).div_const c).pow 2).neg).exp
      refine this.congr_deriv ?_
      simp
    refine (((h1.const_mul (2 / √π)).mul_const (1 / c)).neg).congr_deriv ?_
    field_simp
  · field_simp
    ring

/-- A pair to which the theorems apply: boreholes of 100 m and 150 m at depths 4 m and 2 m. -/
def samplePair : Pair := ⟨5, 100, 4, 150, 2⟩

theorem samplePair_ok : samplePair.Ok := ⟨by norm_num [samplePair], by norm_num [samplePair], by norm_num [samplePair]⟩

example : 150 * fls 3600 (1 / 10 ^ 6) samplePair true true = 100 * fls 3600 (1 / 10 ^ 6) samplePair.swap true true :=
  reciprocity _ _ samplePair (by norm_num [samplePair]) (by norm_num [samplePair]) true true

example : fls 3600 (1 / 10 ^ 6) samplePair true true = fls 3600 (1 / 10 ^ 6) samplePair true false + fls 3600 (1 / 10 ^ 6) samplePair false true :=
  (real_plus_image _ _ samplePair_ok).1

/-! ### Vectors of times -/

theorem quad_tail {f : ℝ → ℝ} {a b : ℝ} (hf : ∀ a, 0 ≤ a → IntegrableOn f (Set.Ioi a)) (ha : 0 ≤ a) (hb : 0 ≤ b) : quad f b none + quad f a (some b) = quad f a none := by
  have := intervalIntegral.integral_Ioi_sub_Ioi' (μ := volume) (hf a ha) (hf b hb)
  unfold quad
  linarith

theorem cumsum_tails {f : ℝ → ℝ} {c : ℝ} (hf : ∀ a, 0 ≤ a → IntegrableOn f (Set.Ioi a)) (a0 : ℝ) (h0 : 0 ≤ a0) (l : List ℝ) (hl : ∀ a ∈ l, 0 ≤ a) :
    Bore.cumsumFrom (c * quad f a0 none) (List.zipWith (fun a b => c * quad f a b) l ((a0 :: l).dropLast.map some)) = l.map fun a => c * quad f a none := by
  induction l generalizing a0 with
  | nil => simp [Bore.cumsumFrom]
  | cons b l ih =>
    have hb := hl b List.mem_cons_self
    have e : c * quad f a0 none + c * quad f b (some a0) = c * quad f b none := by rw [← mul_add, quad_tail hf hb h0]
    rw [List.dropLast_cons_of_ne_nil (by simp)]
    simp only [List.map_cons, List.zipWith_cons_cons, Bore.cumsumFrom, e]
    rw [ih b hb fun a ha => hl a (List.mem_cons_of_mem _ ha)]

theorem many_eq {f : ℝ → ℝ} {c : ℝ} (hf : ∀ a, 0 ≤ a → IntegrableOn f (Set.Ioi a)) (l : List ℝ) (hl : ∀ a ∈ l, 0 ≤ a) :
    Bore.cumsumFrom 0 (List.zipWith (fun a b => c * quad f a b) l (uppers l)) = l.map fun a => c * quad f a none := by
  cases l with
  | nil => simp [Bore.cumsumFrom]
  | cons a l =>
    have e : uppers (a :: l) = none :: (a :: l).dropLast.map some := rfl
    rw [e]
    simp only [List.zipWith_cons_cons, Bore.cumsumFrom, zero_add, List.map_cons]
    rw [cumsum_tails hf a (hl a List.mem_cons_self) l fun b hb => hl b (List.mem_cons_of_mem _ hb)]

/-- **C23**.  A call with an array of times, in any order, returns the values of calls with one time. -/
theorem times_vector (times : List ℝ) (alpha : ℝ) {g : Pair} (hg : g.Ok) (rea img : Bool) :
    flsMany times alpha g rea img = times.map fun t => fls t alpha g rea img := by
  unfold flsMany
  dsimp only
  rw [many_eq (fun a ha => integrand_integrableOn hg rea img ha) _ (by intro a ha; obtain ⟨t, -, rfl⟩ := List.mem_map.mp ha; exact lower_nonneg _ _),
    List.map_map]
  rfl

example : flsMany [3600, 60, 7200] (1 / 10 ^ 6) samplePair true true =
    [fls 3600 (1 / 10 ^ 6) samplePair true true, fls 60 (1 / 10 ^ 6) samplePair true true, fls 7200 (1 / 10 ^ 6) samplePair true true] :=
  times_vector _ _ samplePair_ok true true

end Verif.FLS
