import Verif.FLS.PsdLemmas
import Verif.FLS.ApproxLemmas
import Verif.FLS.TimeProps

/-!
# Lemmas: the vertical part of the line source as a quadratic form
-/

noncomputable section

namespace Verif.FLS

open Real MeasureTheory Set Filter Topology

def ramp (q s : ℝ) : ℝ := erfint (q * s) / s

theorem ramp_deriv (q : ℝ) {s : ℝ} (hs : s ≠ 0) : HasDerivAt (ramp q) ((1 - exp (-(q * s) ^ 2)) / (√π * s ^ 2)) s := by
  have h1 : HasDerivAt (fun s => erfint (q * s)) (erf (q * s) * q) s := by
    have := HasDerivAt.comp s (hasDerivAt_erfint (q * s)) ((hasDerivAt_id s).const_mul q)
    rw [mul_one] at this
    exact this
  refine (h1.div (hasDerivAt_id s) hs).congr_deriv ?_
  have := sqrt_pi_pos
  simp only [id, erfint]
  field_simp
  ring

theorem ramp_continuousAt_zero (q : ℝ) : ContinuousAt (ramp q) 0 := by
  have h1 : HasDerivAt (fun s => erfint (q * s)) 0 0 := by
    have := HasDerivAt.comp 0 (hasDerivAt_erfint (q * 0)) ((hasDerivAt_id 0).const_mul q)
    rw [mul_zero, erf_zero, zero_mul] at this
    exact this
  rw [hasDerivAt_iff_tendsto_slope_zero] at h1
  rw [continuousAt_iff_punctured_nhds]
  have e : ramp q 0 = 0 := by simp [ramp]
  rw [e]
  refine h1.congr fun s => ?_
  simp [ramp, erfint_zero]
  ring

theorem ramp_continuous (q : ℝ) : Continuous (ramp q) := by
  rw [continuous_iff_continuousAt]
  intro s
  by_cases hs : s = 0
  · rw [hs]; exact ramp_continuousAt_zero q
  · exact (ramp_deriv q hs).continuousAt

theorem ramp_top_pos {q : ℝ} (hq : 0 < q) : Tendsto (ramp q) atTop (𝓝 q) := by
  have h2 : Tendsto (fun s => erf (q * s)) atTop (𝓝 1) := erf_tendsto.comp (tendsto_id.const_mul_atTop hq)
  have h1 : Tendsto (fun s : ℝ => 1 / √π * (1 - exp (-(q * s) ^ 2)) / s) atTop (𝓝 0) := by
    have hc := sqrt_pi_pos
    refine squeeze_zero' (g := fun s => 1 / √π * s⁻¹) ?_ ?_ (by simpa using tendsto_inv_atTop_zero.const_mul (1 / √π))
    · filter_upwards [eventually_gt_atTop 0] with s hs
      have : exp (-(q * s) ^ 2) ≤ 1 := exp_le_one_iff.mpr (by nlinarith [sq_nonneg (q * s)])
      have : 0 ≤ 1 - exp (-(q * s) ^ 2) := by linarith
      positivity
    · filter_upwards [eventually_gt_atTop 0] with s hs
      rw [div_eq_mul_inv]
      refine mul_le_mul_of_nonneg_right ?_ (by positivity)
      refine mul_le_of_le_one_right (by positivity) ?_
      linarith [exp_pos (-(q * s) ^ 2)]
  have h3 := (h2.const_mul q).sub h1
  rw [mul_one, sub_zero] at h3
  refine h3.congr' ?_
  filter_upwards [eventually_gt_atTop 0] with s hs
  unfold ramp erfint
  field_simp

theorem ramp_top (q : ℝ) : Tendsto (ramp q) atTop (𝓝 |q|) := by
  rcases lt_trichotomy q 0 with h | h | h
  · rw [abs_of_neg h]
    refine (ramp_top_pos (neg_pos.mpr h)).congr fun s => ?_
    rw [ramp, ramp, neg_mul, erfint_neg]
  · rw [h, abs_zero]
    have : ramp 0 = fun _ => 0 := by funext s; simp [ramp, erfint_zero]
    rw [this]; exact tendsto_const_nhds
  · rw [abs_of_pos h]; exact ramp_top_pos h

/-- The vertical part of the integrand. -/
def Pair.vert (g : Pair) (s : ℝ) : ℝ := inner8 (g.qAll.map fun q => ramp q s)

theorem integrand_vert (g : Pair) {s : ℝ} (hs : s ≠ 0) : integrand g true true s = exp (-g.dis ^ 2 * s ^ 2) * g.vert s / s := by
  simp only [integrand, Bool.and_self, if_true, Pair.vert, inner8, Pair.qAll, List.map_cons, List.map_nil, List.zipWith_cons_cons, List.zipWith_nil_left, List.sum_cons, List.sum_nil, ramp,
    zpow_neg, add_zero]
  rw [show s ^ (2 : ℤ) = s ^ 2 by norm_cast]
  field_simp

variable {ι : Type*}

/-- The vertical part for the segments `j` (source) and `i` (receiver). -/
def vertOf (D H : ι → ℝ) (i j : ι) (s : ℝ) : ℝ := Pair.vert ⟨0, H j, D j, H i, D i⟩ s

def vform [Fintype ι] (D H : ι → ℝ) (M : ι → ι → ℝ) (c : ι → ℝ) (s : ℝ) : ℝ := ∑ i, ∑ j, c i * c j * M i j * vertOf D H i j s

theorem vertOf_zero (D H : ι → ℝ) (i j : ι) : vertOf D H i j 0 = 0 := by
  simp [vertOf, Pair.vert, inner8, Pair.qAll, ramp]

theorem vertOf_continuous (D H : ι → ℝ) (i j : ι) : Continuous (vertOf D H i j) := by
  have := ramp_continuous
  unfold vertOf Pair.vert inner8 Pair.qAll
  simp only [List.map_cons, List.map_nil, List.zipWith_cons_cons, List.zipWith_nil_left, List.sum_cons, List.sum_nil]
  fun_prop

theorem vform_continuous [Fintype ι] (D H : ι → ℝ) (M : ι → ι → ℝ) (c : ι → ℝ) : Continuous (vform D H M c) := by
  have := vertOf_continuous D H
  unfold vform
  fun_prop

/-- The Gaussian differences of the ends of two segments and of their images. -/
def ends (D H : ι → ℝ) (i j : ι) (s : ℝ) : ℝ := -inner8 ((Pair.mk 0 (H j) (D j) (H i) (D i)).qAll.map fun q => exp (-(q * s) ^ 2))

theorem vertOf_deriv (D H : ι → ℝ) (i j : ι) {s : ℝ} (hs : s ≠ 0) : HasDerivAt (vertOf D H i j) (ends D H i j s / (√π * s ^ 2)) s := by
  unfold vertOf Pair.vert ends inner8 Pair.qAll
  simp only [List.map_cons, List.map_nil, List.zipWith_cons_cons, List.zipWith_nil_left, List.sum_cons, List.sum_nil, add_zero]
  have h := fun q => ramp_deriv q hs
  refine (((h _).const_mul 1).add (((h _).const_mul (-1)).add (((h _).const_mul 1).add (((h _).const_mul (-1)).add (((h _).const_mul 1).add
    (((h _).const_mul (-1)).add (((h _).const_mul 1).add ((h _).const_mul (-1)))))))) : HasDerivAt _ _ _).congr_deriv ?_
  ring

theorem ends_psd [Fintype ι] (D H : ι → ℝ) {M : ι → ι → ℝ} (hM : PSD M) (c : ι → ℝ) (s : ℝ) : 0 ≤ ∑ i, ∑ j, c i * c j * M i j * ends D H i j s := by
  classical
  have h := (hM.comap (ι := ι × Bool) Prod.fst).mirror (fun p => if p.2 then D p.1 else D p.1 + H p.1) s fun p => if p.2 then c p.1 else -c p.1
  refine h.trans_eq ?_
  simp only [Fintype.sum_prod_type, Fintype.sum_bool, if_true, Bool.false_eq_true, if_false]
  refine Finset.sum_congr rfl fun i _ => ?_
  rw [← Finset.sum_add_distrib]
  refine Finset.sum_congr rfl fun j _ => ?_
  simp only [ends, inner8, Pair.qAll, List.map_cons, List.map_nil, List.zipWith_cons_cons, List.zipWith_nil_left, List.sum_cons, List.sum_nil, add_zero]
  rw [show D i - D j + H i - H j = D i + H i - (D j + H j) by ring, show D i + D j + H i + H j = D i + H i + (D j + H j) by ring, show D i - D j + H i = D i + H i - D j by ring,
    show D i - D j - H j = D i - (D j + H j) by ring, show D i + D j + H i = D i + H i + D j by ring, show D i + D j + H j = D i + (D j + H j) by ring]
  ring

/-- The vertical form of a non-negative array increases. -/
theorem vform_mono [Fintype ι] (D H : ι → ℝ) {M : ι → ι → ℝ} (hM : PSD M) (c : ι → ℝ) : MonotoneOn (vform D H M c) (Ici 0) := by
  have hd : ∀ s : ℝ, s ≠ 0 → HasDerivAt (vform D H M c) ((∑ i, ∑ j, c i * c j * M i j * ends D H i j s) / (√π * s ^ 2)) s := fun s hs => by
    have := HasDerivAt.fun_sum (u := Finset.univ) fun i _ => HasDerivAt.fun_sum (u := Finset.univ) fun j _ => (vertOf_deriv D H i j hs).const_mul (c i * c j * M i j)
    refine this.congr_deriv ?_
    simp only [Finset.sum_div, mul_div_assoc]
  refine monotoneOn_of_deriv_nonneg (convex_Ici 0) (vform_continuous D H M c).continuousOn ?_ ?_
  · intro s hs
    rw [interior_Ici] at hs
    exact (hd s (ne_of_gt hs)).differentiableAt.differentiableWithinAt
  · intro s hs
    rw [interior_Ici] at hs
    rw [(hd s (ne_of_gt hs)).deriv]
    have := ends_psd D H hM c s
    positivity

theorem vform_nonneg [Fintype ι] (D H : ι → ℝ) {M : ι → ι → ℝ} (hM : PSD M) (c : ι → ℝ) {s : ℝ} (hs : 0 ≤ s) : 0 ≤ vform D H M c s := by
  have := vform_mono D H hM c (Set.mem_Ici.mpr le_rfl) (Set.mem_Ici.mpr hs) hs
  refine le_trans (le_of_eq ?_) this
  simp [vform, vertOf_zero]

/-- Twice the length shared by two segments. -/
def overlap (D H : ι → ℝ) (i j : ι) : ℝ := inner8 ((Pair.mk 0 (H j) (D j) (H i) (D i)).qAll.map fun q => |q|)

theorem vertOf_top (D H : ι → ℝ) (i j : ι) : Tendsto (vertOf D H i j) atTop (𝓝 (overlap D H i j)) := by
  unfold vertOf Pair.vert overlap inner8 Pair.qAll
  simp only [List.map_cons, List.map_nil, List.zipWith_cons_cons, List.zipWith_nil_left, List.sum_cons, List.sum_nil, add_zero]
  have h := fun q => ramp_top q
  exact ((h _).const_mul 1).add (((h _).const_mul (-1)).add (((h _).const_mul 1).add (((h _).const_mul (-1)).add (((h _).const_mul 1).add
    (((h _).const_mul (-1)).add (((h _).const_mul 1).add ((h _).const_mul (-1))))))))

theorem overlap_self {D H : ι → ℝ} {i : ι} (hD : 0 ≤ D i) (hH : 0 ≤ H i) : overlap D H i i = 2 * H i := by
  unfold overlap inner8 Pair.qAll
  simp only [List.map_cons, List.map_nil, List.zipWith_cons_cons, List.zipWith_nil_left, List.sum_cons, List.sum_nil, sub_self, zero_add, zero_sub, abs_neg, abs_zero, add_zero]
  rw [abs_of_nonneg hH, abs_of_nonneg (show 0 ≤ D i + D i + H i by linarith), abs_of_nonneg (show 0 ≤ D i + D i by linarith), abs_of_nonneg (show 0 ≤ D i + D i + H i + H i by linarith)]
  simp
  ring

/-- Segments one above the other share no length. -/
theorem overlap_apart {D H : ι → ℝ} {i j : ι} (hDi : 0 ≤ D i) (hHi : 0 ≤ H i) (hDj : 0 ≤ D j) (hHj : 0 ≤ H j) (h : D i + H i ≤ D j ∨ D j + H j ≤ D i) : overlap D H i j = 0 := by
  unfold overlap inner8 Pair.qAll
  simp only [List.map_cons, List.map_nil, List.zipWith_cons_cons, List.zipWith_nil_left, List.sum_cons, List.sum_nil, add_zero]
  rw [abs_of_nonneg (show 0 ≤ D i + D j + H i by linarith), abs_of_nonneg (show 0 ≤ D i + D j by linarith), abs_of_nonneg (show 0 ≤ D i + D j + H j by linarith),
    abs_of_nonneg (show 0 ≤ D i + D j + H i + H j by linarith)]
  rcases h with h | h
  · rw [abs_of_nonpos (show D i - D j + H i ≤ 0 by linarith), abs_of_nonpos (show D i - D j ≤ 0 by linarith), abs_of_nonpos (show D i - D j - H j ≤ 0 by linarith),
      abs_of_nonpos (show D i - D j + H i - H j ≤ 0 by linarith)]
    ring
  · rw [abs_of_nonneg (show 0 ≤ D i - D j + H i by linarith), abs_of_nonneg (show 0 ≤ D i - D j by linarith), abs_of_nonneg (show 0 ≤ D i - D j - H j by linarith),
      abs_of_nonneg (show 0 ≤ D i - D j + H i - H j by linarith)]
    ring

end Verif.FLS
