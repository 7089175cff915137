import Verif.Pipe.ConvModel
import Mathlib.Analysis.SpecialFunctions.Log.Deriv
import Mathlib.Analysis.Complex.ExponentialBounds
import Mathlib.Analysis.SpecificLimits.Basic
import Mathlib.Topology.Order.IntermediateValue

/-!
# The Colebrook-White iteration in the variable `x = 1/√f`
-/

noncomputable section

namespace Verif.Pipe.Conv

open Real

/-- Right-hand side of the Colebrook-White equation, `x = g x`. -/
def cg (a b x : ℝ) : ℝ := -2 * logb 10 (a + b * x)

theorem log10_gt : (2 : ℝ) < log 10 := by
  have h1 : exp 1 < 3 := lt_trans exp_one_lt_d9 (by norm_num)
  have h2 : exp 2 < 10 := by
    have : exp 2 = exp 1 * exp 1 := by rw [← exp_add]; norm_num
    rw [this]
    nlinarith [exp_pos 1]
  rw [lt_log_iff_exp_lt (by norm_num)]
  exact h2

/-- `2 / log 10`. -/
def cc : ℝ := 2 / log 10

theorem cc_pos : 0 < cc := div_pos two_pos (lt_trans two_pos log10_gt)
theorem cc_lt : cc < 1 := (div_lt_one (lt_trans two_pos log10_gt)).mpr log10_gt

theorem cg_eq (a b x : ℝ) : cg a b x = -(cc * log (a + b * x)) := by
  unfold cg cc logb; ring

section
variable {a b : ℝ} (ha : 0 ≤ a) (hb : 0 < b)
include ha hb

theorem arg_pos {x : ℝ} (hx : 0 < x) : 0 < a + b * x := by positivity

theorem cg_anti {x y : ℝ} (hx : 0 < x) (hxy : x ≤ y) : cg a b y ≤ cg a b x := by
  rw [cg_eq, cg_eq]
  have h1 := arg_pos ha hb hx
  have : log (a + b * x) ≤ log (a + b * y) := log_le_log h1 (by gcongr)
  have := cc_pos
  nlinarith

/-- Slope bound. -/
theorem cg_lip {x y : ℝ} (hx : 0 < x) (hxy : x ≤ y) : cg a b x - cg a b y ≤ cc * ((y - x) / x) := by
  rw [cg_eq, cg_eq]
  have h1 := arg_pos ha hb hx
  have h2 := arg_pos ha hb (hx.trans_le hxy)
  have h3 : log (a + b * y) - log (a + b * x) ≤ (y - x) / x := by
    rw [← log_div h2.ne' h1.ne']
    refine (log_le_sub_one_of_pos (div_pos h2 h1)).trans ?_
    rw [div_sub_one h1.ne', div_le_div_iff₀ h1 hx]
    nlinarith
  have := cc_pos
  nlinarith

theorem cg_abs {x y l : ℝ} (hl : 0 < l) (hx : l ≤ x) (hy : l ≤ y) : |cg a b x - cg a b y| ≤ cc * (|x - y| / l) := by
  have hc := cc_pos
  rcases le_total x y with h | h
  · have hx0 := hl.trans_le hx
    rw [abs_of_nonneg (sub_nonneg.mpr (cg_anti ha hb hx0 h)), abs_sub_comm, abs_of_nonneg (sub_nonneg.mpr h)]
    refine (cg_lip ha hb hx0 h).trans ?_
    gcongr
  · have hy0 := hl.trans_le hy
    rw [abs_sub_comm, abs_of_nonneg (sub_nonneg.mpr (cg_anti ha hb hy0 h)), abs_of_nonneg (sub_nonneg.mpr h)]
    refine (cg_lip ha hb hy0 h).trans ?_
    gcongr

/-- `x - g x` grows at least as fast as `x`. -/
theorem cphi_mono {x y : ℝ} (hx : 0 < x) (hxy : x ≤ y) : y - x ≤ (y - cg a b y) - (x - cg a b x) := by
  have := cg_anti ha hb hx hxy
  linarith

theorem cphi_abs {x y : ℝ} (hx : 0 < x) (hy : 0 < y) (hr : x = cg a b x) : |y - x| ≤ |y - cg a b y| := by
  rcases le_total x y with h | h
  · have := cphi_mono ha hb hx h
    rw [abs_of_nonneg (sub_nonneg.mpr h)]
    refine le_trans ?_ (le_abs_self _)
    linarith
  · have := cphi_mono ha hb hy h
    rw [abs_sub_comm, abs_of_nonneg (sub_nonneg.mpr h)]
    refine le_trans ?_ (neg_le_abs _)
    linarith

theorem root_unique {x y : ℝ} (hx : 0 < x) (hy : 0 < y) (hrx : x = cg a b x) (hry : y = cg a b y) : y = x := by
  have := cphi_abs ha hb hx hy hrx
  rw [← hry, sub_self, abs_zero] at this
  exact sub_eq_zero.mp (abs_nonpos_iff.mp this)

/-- Upper end of the invariant interval `[1, U]`. -/
def cU (a b : ℝ) : ℝ := max (cg a b 1) (√50)

variable (ha' : a ≤ 1 / 7) (hb' : b ≤ 11 / 10000)
include ha' hb'

omit ha hb ha' hb' in
theorem sqrt50 : 7 < √50 ∧ √50 < 8 := by
  constructor
  · rw [lt_sqrt (by norm_num)]; norm_num
  · rw [sqrt_lt' (by norm_num)]; norm_num

omit ha' in
theorem bU_le : b * cU a b ≤ 1 / 10 := by
  have hs := sqrt50
  have h1 : b * √50 ≤ 1 / 10 := by nlinarith
  have h2 : b * cg a b 1 ≤ 1 / 10 := by
    rw [cg_eq, mul_one]
    -- -log (a+b) ≤ -log b ≤ 2/√b
    have hl : log b ≤ log (a + b) := log_le_log hb (by linarith)
    have hsb : 0 < √b := sqrt_pos.mpr hb
    have hsq : √b * √b = b := mul_self_sqrt hb.le
    have h3 : -log b ≤ 2 * (1 / √b) := by
      have : log b = -(2 * log (1 / √b)) := by
        rw [log_div one_ne_zero hsb.ne', log_one, log_sqrt hb.le]; ring
      rw [this, neg_neg]
      have := log_le_sub_one_of_pos (show 0 < 1 / √b by positivity)
      linarith
    have h4 : √b ≤ 1 / 30 := by
      rw [sqrt_le_left (by norm_num)]; norm_num; linarith
    have h5 : b * (1 / √b) = √b := by
      nth_rewrite 1 [← hsq]; field_simp
    have hc := cc_pos; have hc' := cc_lt
    have h6 : -(cc * log (a + b)) ≤ cc * (2 * (1 / √b)) := by nlinarith
    have h7 : b * (cc * (2 * (1 / √b))) = cc * (2 * √b) := by linear_combination (cc * 2) * h5
    have h8 := mul_le_mul_of_nonneg_left h6 hb.le
    nlinarith
  unfold cU
  rcases max_choice (cg a b 1) (√50) with h | h <;> rw [h] <;> assumption

theorem cg_ge {x : ℝ} (hx : 0 < x) (hxU : x ≤ cU a b) : 1 ≤ cg a b x := by
  have hc := cc_pos
  have h1 : a + b * x ≤ 1 / 4 := by
    have := bU_le ha hb hb'
    have : b * x ≤ b * cU a b := by gcongr
    linarith
  have h2 := arg_pos ha hb hx
  rw [cg_eq]
  have h3 : log (a + b * x) ≤ -(log 10 / 2) := by
    have h4 : log ((a + b * x) ^ 2) ≤ log (1 / 10) := log_le_log (by positivity) (by nlinarith)
    rw [log_pow, log_div one_ne_zero (by norm_num), log_one] at h4
    push_cast at h4
    linarith
  have h5 : cc * (log 10 / 2) = 1 := by
    have : log 10 ≠ 0 := by have := log10_gt; linarith
    unfold cc; field_simp
  nlinarith

theorem cg_mem {x : ℝ} (hx : 1 ≤ x ∧ x ≤ cU a b) : 1 ≤ cg a b x ∧ cg a b x ≤ cU a b :=
  ⟨cg_ge ha hb ha' hb' (by linarith [hx.1]) hx.2, (cg_anti ha hb one_pos hx.1).trans (le_max_left _ _)⟩

omit ha hb ha' hb' in
theorem one_le_U : 1 ≤ cU a b := by
  have := sqrt50
  exact le_trans (by linarith) (le_max_right _ _)

/-- The Colebrook-White equation has a root. -/
theorem root_exists : ∃ x, 1 ≤ x ∧ x ≤ cU a b ∧ x = cg a b x := by
  have hU : (1 : ℝ) ≤ cU a b := one_le_U
  have hcont : ContinuousOn (fun x => x - cg a b x) (Set.Icc 1 (cU a b)) := by
    simp only [cg_eq]
    refine ContinuousOn.sub continuousOn_id (ContinuousOn.neg (ContinuousOn.mul continuousOn_const (ContinuousOn.log (by fun_prop) fun x hx => ?_)))
    exact (arg_pos ha hb (by linarith [hx.1])).ne'
  have h1 := cg_ge ha hb ha' hb' one_pos hU
  have h2 : cg a b (cU a b) ≤ cU a b := (cg_mem ha hb ha' hb' ⟨hU, le_rfl⟩).2
  obtain ⟨x, hx, hx0⟩ := intermediate_value_Icc hU hcont (show (0 : ℝ) ∈ Set.Icc _ _ from ⟨by linarith, by linarith⟩)
  exact ⟨x, hx.1, hx.2, by simpa [sub_eq_zero] using hx0⟩

/-- Iterates. -/
theorem iter_mem (n : ℕ) : 1 ≤ (cg a b)^[n] (√50) ∧ (cg a b)^[n] (√50) ≤ cU a b := by
  induction n with
  | zero => exact ⟨by have := sqrt50; simp only [Function.iterate_zero, id]; linarith, le_max_right _ _⟩
  | succ n ih => rw [Function.iterate_succ_apply']; exact cg_mem ha hb ha' hb' ih

theorem iter_diff (n : ℕ) : |(cg a b)^[n + 1] (√50) - (cg a b)^[n] (√50)| ≤ cc ^ n * |cg a b (√50) - √50| := by
  induction n with
  | zero => simp
  | succ n ih =>
    have h1 := cg_abs ha hb one_pos (iter_mem ha hb ha' hb' (n + 1)).1 (iter_mem ha hb ha' hb' n).1
    rw [← Function.iterate_succ_apply' (cg a b), ← Function.iterate_succ_apply' (cg a b), div_one] at h1
    refine h1.trans ?_
    rw [pow_succ', mul_assoc]
    exact mul_le_mul_of_nonneg_left ih cc_pos.le

end

/-! ### The loop -/

/-- Loop states that come from `x`, `y = g x`. -/
theorem body_eq {E Re x df : ℝ} (hx : 0 < x) : fBody E Re ⟨1 / x ^ 2, df⟩ = ⟨1 / cg (E / 3.7) (2.51 / Re) x ^ 2, 1 / cg (E / 3.7) (2.51 / Re) x ^ 2 - 1 / x ^ 2⟩ := by
  have h1 : oneOver E Re (1 / x ^ 2) = cg (E / 3.7) (2.51 / Re) x := by
    unfold oneOver cg
    rw [sqrt_div zero_le_one, sqrt_one, sqrt_sq hx.le, mul_one_div, div_div_eq_mul_div, div_mul_eq_mul_div]
  unfold fBody
  simp only [h1]

theorem start_eq : (⟨0.02, 10 ^ 99⟩ : FS) = ⟨1 / √50 ^ 2, 10 ^ 99⟩ := by
  rw [sq_sqrt (by norm_num)]; norm_num

/-- Relative change in terms of `x`. -/
theorem rel_eq {x y : ℝ} (hx : 0 < x) (hy : 0 < y) : (1 / y ^ 2 - 1 / x ^ 2) / (1 / y ^ 2) = (x - y) * (x + y) / x ^ 2 := by
  field_simp
  ring

/-- Assumptions on roughness and Reynolds number, for the interval above. -/
theorem coeff_ok {E Re : ℝ} (hE : 0 ≤ E) (hE' : E ≤ 1 / 2) (hRe : 2300 ≤ Re) :
    0 ≤ E / 3.7 ∧ 0 < 2.51 / Re ∧ E / 3.7 ≤ 1 / 7 ∧ 2.51 / Re ≤ 11 / 10000 := by
  refine ⟨by positivity, by positivity, ?_, ?_⟩
  · rw [div_le_div_iff₀ (by norm_num) (by norm_num)]; linarith
  · rw [div_le_div_iff₀ (by linarith) (by norm_num)]; linarith

/-- States after `n` passes. -/
theorem iter_state {E Re : ℝ} (hE : 0 ≤ E) (hE' : E ≤ 1 / 2) (hRe : 2300 ≤ Re) (n : ℕ) :
    (fBody E Re)^[n + 1] ⟨0.02, 10 ^ 99⟩ = ⟨1 / ((cg (E / 3.7) (2.51 / Re))^[n + 1] (√50)) ^ 2,
      1 / ((cg (E / 3.7) (2.51 / Re))^[n + 1] (√50)) ^ 2 - 1 / ((cg (E / 3.7) (2.51 / Re))^[n] (√50)) ^ 2⟩ := by
  obtain ⟨c1, c2, c3, c4⟩ := coeff_ok hE hE' hRe
  induction n with
  | zero =>
    rw [start_eq]
    exact body_eq (by have := sqrt50; linarith)
  | succ n ih =>
    have hm := iter_mem c1 c2 c3 c4 (n + 1)
    rw [Function.iterate_succ_apply', ih, body_eq (by linarith [hm.1]), Function.iterate_succ_apply' (cg (E / 3.7) (2.51 / Re)) (n + 1)]

/-- The loop terminates. -/
theorem loop_ends {E Re tol : ℝ} (hE : 0 ≤ E) (hE' : E ≤ 1 / 2) (hRe : 2300 ≤ Re) (ht : 0 < tol) :
    ∃ n, ¬ fCond tol ((fBody E Re)^[n] ⟨0.02, 10 ^ 99⟩) := by
  obtain ⟨c1, c2, c3, c4⟩ := coeff_ok hE hE' hRe
  obtain ⟨a, ha⟩ : ∃ a, a = E / 3.7 := ⟨_, rfl⟩
  obtain ⟨b, hb⟩ : ∃ b, b = 2.51 / Re := ⟨_, rfl⟩
  rw [← ha] at c1 c3
  rw [← hb] at c2 c4
  have hlim : Filter.Tendsto (fun n : ℕ => cc ^ n * (|cg a b (√50) - √50| * (2 * cU a b))) Filter.atTop (nhds (0 * (|cg a b (√50) - √50| * (2 * cU a b)))) :=
    (tendsto_pow_atTop_nhds_zero_of_lt_one cc_pos.le cc_lt).mul_const _
  rw [zero_mul] at hlim
  obtain ⟨n, hn⟩ := (hlim.eventually (gt_mem_nhds ht)).exists
  refine ⟨n + 1, ?_⟩
  rw [iter_state hE hE' hRe n, ← ha, ← hb]
  unfold fCond
  have h1 := iter_mem c1 c2 c3 c4 n
  have h2 := iter_mem c1 c2 c3 c4 (n + 1)
  have h3 := iter_diff c1 c2 c3 c4 n
  generalize (cg a b)^[n] (√50) = x at *
  generalize (cg a b)^[n + 1] (√50) = y at *
  dsimp only
  rw [rel_eq (by linarith [h1.1]) (by linarith [h2.1]), not_lt, abs_div, abs_mul, abs_of_pos (show 0 < x + y by linarith [h1.1, h2.1]), abs_of_pos (show 0 < x ^ 2 by nlinarith [h1.1]),
    div_le_iff₀ (by nlinarith [h1.1]), abs_sub_comm]
  have h4 : |y - x| * (x + y) ≤ cc ^ n * |cg a b (√50) - √50| * (2 * cU a b) := by
    refine mul_le_mul h3 (by linarith [h1.2, h2.2]) (by linarith [h1.1, h2.1]) ?_
    exact mul_nonneg (pow_nonneg cc_pos.le _) (abs_nonneg _)
  have h5 : tol ≤ tol * x ^ 2 := by
    have : 1 ≤ x ^ 2 := by nlinarith [h1.1]
    nlinarith
  linarith

/-- At the end of the loop, `y = g x` with a small relative change. -/
theorem loop_result {E Re tol : ℝ} (hE : 0 ≤ E) (hE' : E ≤ 1 / 2) (hRe : 2300 ≤ Re) (ht : 0 < tol) (ht' : tol ≤ 1 / 2) {s : FS}
    (hs : Loop (fCond tol) (fBody E Re) ⟨0.02, 10 ^ 99⟩ s) :
    ∃ x y, 1 ≤ x ∧ 1 ≤ y ∧ y = cg (E / 3.7) (2.51 / Re) x ∧ s.f = 1 / y ^ 2 ∧ |x - y| * (x + y) ≤ tol * x ^ 2 := by
  obtain ⟨c1, c2, c3, c4⟩ := coeff_ok hE hE' hRe
  obtain ⟨n, hn⟩ := loop_ends hE hE' hRe ht
  obtain ⟨k, _, _, hk⟩ := Loop.exists_of_iterate _ n hn
  have hsk := Loop.det hs hk
  have hc := Loop.not_cond hs
  cases k with
  | zero =>
    exfalso
    rw [hsk] at hc
    apply hc
    unfold fCond
    simp only [Function.iterate_zero, id]
    rw [abs_of_pos (by norm_num)]
    norm_num
    linarith
  | succ k =>
    rw [iter_state hE hE' hRe k] at hsk
    have h1 := iter_mem c1 c2 c3 c4 k
    have h2 := iter_mem c1 c2 c3 c4 (k + 1)
    refine ⟨_, _, h1.1, h2.1, Function.iterate_succ_apply' _ _ _, by rw [hsk], ?_⟩
    rw [hsk] at hc
    unfold fCond at hc
    dsimp only at hc
    rw [rel_eq (by linarith [h1.1]) (by linarith [h2.1]), not_lt, abs_div, abs_mul] at hc
    rwa [div_le_iff₀ (abs_pos.mpr (by nlinarith [h1.1])), abs_of_pos (show 0 < _ + _ by linarith [h1.1, h2.1]), abs_of_pos (show 0 < _ ^ 2 by nlinarith [h1.1])] at hc

/-- Residual at the end of the loop. -/
theorem residual {a b tol x y : ℝ} (ha : 0 ≤ a) (hb : 0 < b) (ht : 0 < tol) (ht' : tol ≤ 1 / 2) (hx : 1 ≤ x) (hy : 1 ≤ y) (hxy : y = cg a b x)
    (hd : |x - y| * (x + y) ≤ tol * x ^ 2) : |y - cg a b y| ≤ tol := by
  have hc := cc_pos; have hc' := cc_lt
  have key : ∀ l, 0 < l → l ≤ x → l ≤ y → x ^ 2 ≤ l * (x + y) → |y - cg a b y| ≤ tol := by
    intro l hl h1 h2 h3
    have h4 := cg_abs ha hb hl h1 h2
    rw [← hxy] at h4
    refine h4.trans ?_
    have h5 : |x - y| / l ≤ tol := by
      rw [div_le_iff₀ hl]
      have h6 : |x - y| * (x + y) ≤ tol * l * (x + y) := by nlinarith
      exact le_of_mul_le_mul_right h6 (by linarith)
    have h7 : 0 ≤ |x - y| / l := by positivity
    nlinarith
  rcases le_total x y with h | h
  · exact key x (by linarith) le_rfl h (by nlinarith)
  · refine key y (by linarith) h le_rfl ?_
    rw [abs_of_nonneg (sub_nonneg.mpr h)] at hd
    nlinarith

end Verif.Pipe.Conv
