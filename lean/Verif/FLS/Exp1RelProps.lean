import Verif.FLS.Exp1RelLemmas
import Verif.FLS.ErfProps

/-!
# Property C119: the error of the formula for the exponential integral is at most a quarter of a percent
-/

noncomputable section

namespace Verif.FLS

open Real Filter Topology Set Exp1Check

theorem E1_tendsto : Tendsto E1 atTop (𝓝 0) := by
  refine squeeze_zero' ((eventually_gt_atTop 0).mono fun x hx => E1_nonneg hx) ((eventually_ge_atTop 1).mono fun x hx => ?_) tendsto_exp_neg_atTop_nhds_zero
  exact (E1_le (by linarith)).trans (div_le_self (exp_pos _).le hx)

theorem exp1_tendsto : Tendsto exp1 atTop (𝓝 0) := by
  have h := exp1_atTop.mul E1_tendsto
  rw [mul_zero] at h
  refine h.congr' ((eventually_gt_atTop 0).mono fun x hx => ?_)
  exact div_mul_cancel₀ _ (E1_pos hx).ne'

/-- A function which decreases to zero is not negative. -/
theorem nonneg_of_deriv {f f' : ℝ → ℝ} (hd : ∀ x, 0 < x → HasDerivAt f (f' x) x) (hn : ∀ x, 0 < x → f' x ≤ 0) (ht : Tendsto f atTop (𝓝 0)) {x : ℝ} (hx : 0 < x) :
    0 ≤ f x := by
  have ha : AntitoneOn f (Ici x) := by
    refine antitoneOn_of_deriv_nonpos (convex_Ici x) (fun z hz => (hd z (hx.trans_le hz)).continuousAt.continuousWithinAt) (fun z hz => ?_) fun z hz => ?_
    · rw [interior_Ici] at hz
      exact (hd z (hx.trans hz)).differentiableAt.differentiableWithinAt
    · rw [interior_Ici] at hz
      rw [(hd z (hx.trans hz)).deriv]
      exact hn z (hx.trans hz)
  exact le_of_tendsto ht ((eventually_ge_atTop x).mono fun z hz => ha self_mem_Ici hz hz)

/-- **C119**: for every positive argument the formula differs from the exponential integral by at most a quarter of a percent of it. -/
theorem exp1_accurate {x : ℝ} (hx : 0 < x) : |exp1 x - E1 x| ≤ E1 x / 400 := by
  have hw : ∀ z, 0 < z → 0 ≤ exp (-z) / z ∧ 1 - 1 / 400 ≤ wA z + wB z ∧ wA z + wB z ≤ 1 + 1 / 400 := fun z hz => by
    have h := abs_le.mp (w_bound hz)
    exact ⟨by positivity, by linarith, by linarith⟩
  have h1 : 0 ≤ (1 + 1 / 400) * E1 x - exp1 x := by
    refine nonneg_of_deriv (f := fun x => (1 + 1 / 400) * E1 x - exp1 x) (fun z hz => ((E1_hasDerivAt hz).const_mul _).sub (exp1_hasDerivAt hz)) (fun z hz => ?_) ?_ hx
    · obtain ⟨e1, e2, e3⟩ := hw z hz
      have := mul_le_mul_of_nonneg_right e3 e1
      linarith
    · have := (E1_tendsto.const_mul (1 + 1 / 400)).sub exp1_tendsto
      rwa [mul_zero, sub_zero] at this
  have h2 : 0 ≤ exp1 x - (1 - 1 / 400) * E1 x := by
    refine nonneg_of_deriv (f := fun x => exp1 x - (1 - 1 / 400) * E1 x) (fun z hz => (exp1_hasDerivAt hz).sub ((E1_hasDerivAt hz).const_mul _)) (fun z hz => ?_) ?_ hx
    · obtain ⟨e1, e2, e3⟩ := hw z hz
      have := mul_le_mul_of_nonneg_right e2 e1
      linarith
    · have := exp1_tendsto.sub (E1_tendsto.const_mul (1 - 1 / 400))
      rwa [mul_zero, sub_zero] at this
  rw [abs_le]
  constructor <;> linarith

/-- **C119**: the formula decreases from one positive argument to the next. -/
theorem exp1_strictAnti : StrictAntiOn exp1 (Ioi 0) := by
  refine strictAntiOn_of_deriv_neg (convex_Ioi 0) (fun z hz => (exp1_hasDerivAt hz).continuousAt.continuousWithinAt) fun z hz => ?_
  rw [interior_Ioi] at hz
  rw [(exp1_hasDerivAt hz).deriv, neg_lt_zero]
  have h := abs_le.mp (w_bound hz)
  have hz' : 0 < z := hz
  exact mul_pos (by linarith) (by positivity)

theorem sum_abs_coeffs {N : ℤ} (h0 : 0 ≤ N) (h1 : N ≤ 24) {ab : List (ℝ × ℝ)} (h : erfCoeffs N = some ab) :
    (ab.map fun c => |c.1|).sum ≤ 400 / 199 ∧ ∀ c ∈ ab, 0 ≤ c.2 := by
  obtain ⟨l, hl, -, hc, hs, -⟩ := erfCoeffs_some h0 h1
  rw [h] at hl
  cases hl
  refine ⟨?_, fun c hm => ?_⟩
  · simp only [List.map_cons, List.sum_cons, abs_one]
    norm_num at hs ⊢
    linarith
  · rcases List.mem_cons.mp hm with rfl | hm
    · exact le_rfl
    · exact (hc c hm).2.le

/-- **C119** (vertical boreholes): the approximation of the finite line source solution differs from it by at most the tabulated bound plus half a percent (1/199),
times the infinite line source. -/
theorem approx_accurate {N : ℤ} (h0 : 0 ≤ N) (h1 : N ≤ 24) {t alpha : ℝ} (ht : 0 < alpha * t) {g : Pair} (hg : g.Ok) (rea img : Bool) :
    ∃ v e, approx t alpha g rea img N = some v ∧ erfTol[N.toNat]? = some e ∧
      |v - fls t alpha g rea img| ≤ g.spans rea img / (4 * g.H2) * (e + 1 / 199) * E1 (g.dis ^ 2 / (4 * alpha * t)) := by
  obtain ⟨ab, e, hab, he, hb⟩ := erf_error h0 h1
  obtain ⟨hs, hc⟩ := sum_abs_coeffs h0 h1 hab
  refine ⟨_, e, by unfold approx; rw [hab]; rfl, he, ?_⟩
  refine (approx_error hc ht hg rea img (e1 := exp1) (δ := 1 / 400) (fun x hx => hb x hx.le) (fun x hx => by have := exp1_accurate hx; linarith) (by norm_num)).trans ?_
  have hsp : 0 ≤ g.spans rea img := by
    unfold Pair.spans
    cases rea <;> cases img <;> simp <;> positivity
  have := E1_nonneg (x := g.dis ^ 2 / (4 * alpha * t)) (by have := hg.dis; have : 0 < 4 * alpha * t := by linarith
                                                           positivity)
  have h2 := hg.H2
  have h4 : 1 / 400 * (ab.map fun c => |c.1|).sum ≤ 1 / 199 := by linarith
  gcongr

namespace Incl

open Bore

/-- **C119** (inclined boreholes). -/
theorem approx_accurate_inclined {N : ℤ} (h0 : 0 ≤ N) (h1 : N ≤ 24) {t alpha : ℝ} (ht : 0 < alpha * t) {b1 b2 : Borehole} {nodes : List (ℝ × ℝ)}
    (h : Clear b1 b2 nodes) (rea img : Bool) :
    ∃ v e, approx t alpha b1 b2 nodes rea img N = some v ∧ erfTol[N.toNat]? = some e ∧
      |v - fls t alpha b1 b2 nodes rea img|
        ≤ sources rea img * (b1.H / (2 * b2.H)) * (nodes.map fun n => |n.2|).sum * (e + 1 / 199) * E1 (b1.rb ^ 2 / (4 * alpha * t)) := by
  obtain ⟨ab, v, e, hab, hv, he, h5⟩ := approx_explicit_inclined h0 h1 ht h rea img
  have hs := (sum_abs_coeffs h0 h1 hab).1
  refine ⟨v, e, hv, he, (h5 (1 / 400) (fun x hx => by have := exp1_accurate hx; linarith) (by norm_num)).trans ?_⟩
  have h6 : 0 ≤ sources rea img := by unfold sources; cases rea <;> cases img <;> norm_num
  have h7 : 0 ≤ b1.H / (2 * b2.H) := by have := h.H1; have := h.H2; positivity
  have h8 : 0 ≤ (nodes.map fun n => |n.2|).sum := List.sum_nonneg fun x hx => by obtain ⟨n, -, rfl⟩ := List.mem_map.mp hx; exact abs_nonneg _
  have h9 := E1_nonneg (x := b1.rb ^ 2 / (4 * alpha * t)) (by have := h.rad; have : 0 < 4 * alpha * t := by linarith
                                                              positivity)
  have h10 : 1 / 400 * (ab.map fun c => |c.1|).sum ≤ 1 / 199 := by linarith
  gcongr

/-- Two leaning boreholes. -/
example : ∃ v : ℝ, approx 3600 (1 / 10 ^ 6) lean1 lean2 [(1 / 4, 1 / 2), (3 / 4, 1 / 2)] true true 10 = some v ∧ ∃ e : ℚ,
    |v - fls 3600 (1 / 10 ^ 6) lean1 lean2 [(1 / 4, 1 / 2), (3 / 4, 1 / 2)] true true|
      ≤ sources true true * (lean1.H / (2 * lean2.H)) * 1 * (e + 1 / 199) * E1 (lean1.rb ^ 2 / (4 * (1 / 10 ^ 6) * 3600)) := by
  obtain ⟨v, e, h1, -, h2⟩ := approx_accurate_inclined (N := 10) (t := 3600) (alpha := 1 / 10 ^ 6) (by norm_num) (by norm_num) (by norm_num)
    (lean_clear [(1 / 4, 1 / 2), (3 / 4, 1 / 2)]) true true
  refine ⟨v, h1, e, h2.trans (le_of_eq ?_)⟩
  have : (([(1 / 4, 1 / 2), (3 / 4, 1 / 2)] : List (ℝ × ℝ)).map fun n => |n.2|).sum = 1 := by norm_num
  rw [this]

end Incl

/-- A case: the formula at 1 is between 0.183 and 0.369. -/
example : exp (-1) / 2 * (1 - 1 / 400) ≤ exp1 1 ∧ exp1 1 ≤ exp (-1) * (1 + 1 / 400) := by
  have h := abs_le.mp (exp1_accurate (x := 1) one_pos)
  have h1 := E1_ge (x := 1) one_pos
  have h2 := E1_le (x := 1) one_pos
  norm_num at h1 h2
  constructor <;> linarith

/-- The default of 10 terms: at most 0.51 %. -/
example : ∃ v, approx 3600 (1 / 10 ^ 6) samplePair true true 10 = some v ∧
    |v - fls 3600 (1 / 10 ^ 6) samplePair true true| ≤ samplePair.spans true true / 600 * 0.0051 * E1 (25 / (4 * (1 / 10 ^ 6) * 3600)) := by
  obtain ⟨v, e, h1, h2, h3⟩ := approx_accurate (N := 10) (by norm_num) (by norm_num) (t := 3600) (alpha := 1 / 10 ^ 6) (by norm_num) samplePair_ok true true
  have : e = 6e-5 := by
    have h2' : erfTol[(10 : ℤ).toNat]? = some 6e-5 := rfl
    rw [h2'] at h2
    exact (Option.some.inj h2).symm
  refine ⟨v, h1, h3.trans ?_⟩
  rw [this]
  have h0 : 0 ≤ samplePair.spans true true := by unfold Pair.spans; simp; positivity
  have h5 := E1_nonneg (x := 25 / (4 * (1 / 10 ^ 6) * 3600)) (by norm_num)
  have e1 : samplePair.dis ^ 2 = 25 := by norm_num [samplePair]
  have e2 : 4 * samplePair.H2 = 600 := by norm_num [samplePair]
  rw [e1, e2]
  refine mul_le_mul_of_nonneg_right (mul_le_mul_of_nonneg_left ?_ (by positivity)) h5
  norm_num

end Verif.FLS
