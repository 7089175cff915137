import Verif.Pipe.PoleMeanProps
import Mathlib.Analysis.SpecialFunctions.Complex.LogDeriv
import Mathlib.Analysis.Calculus.Deriv.Star
import Mathlib.Analysis.Complex.RealDeriv
import Mathlib.Analysis.InnerProductSpace.Calculus

/-!
# Property C65: temperature and heat flux are continuous across the borehole wall
-/

noncomputable section

namespace Verif.Pipe.Pole

open ComplexConjugate Metric Real

variable {n J : ℕ}

theorem W0_re_out {s : Sec n} {w : ℂ} (hw : ¬ ‖w‖ ≤ s.rb) (i : Fin n) :
    (s.W0 w i).re = (1 + s.sigma) * log ‖(s.rb : ℂ) / (w - s.z i)‖ + s.sigma * (1 + s.sigma) / (1 - s.sigma) * log ‖(s.rb : ℂ) / w‖ := by
  unfold Sec.W0
  rw [if_neg hw, Complex.add_re, ← Complex.log_re, ← Complex.log_re]
  congr 1
  · rw [← Complex.re_ofReal_mul]; push_cast; rfl
  · rw [← Complex.re_ofReal_mul]; push_cast; rfl

theorem WJ_re_out {s : Sec n} {w : ℂ} (hw : ¬ ‖w‖ ≤ s.rb) (P : ℂ) (i : Fin n) (j : ℕ) :
    (P * s.WJ w i j).re = (1 + s.sigma) * (P * (s.r i / (w - s.z i)) ^ (j + 1)).re := by
  unfold Sec.WJ
  rw [if_neg hw, ← Complex.re_ofReal_mul]
  congr 1
  push_cast
  ring

/-- The formula of the field inside of the borehole. -/
def Sec.inF (s : Sec n) (Tb : ℝ) (q : Fin n → ℝ) (P : Fin n → Fin J → ℂ) (w : ℂ) : ℝ :=
  Tb + ∑ i, q i * s.pikg * (log ‖(s.rb : ℂ) / (w - s.z i)‖ + s.sigma * log ‖(s.rb : ℂ) ^ 2 / ((s.rb : ℂ) ^ 2 - s.z i * conj w)‖)
    + ∑ i, ∑ j : Fin J, ((P i j * (s.r i / (w - s.z i)) ^ (j.val + 1)).re
      + s.sigma * (P i j * ((s.r i * conj w) / ((s.rb : ℂ) ^ 2 - s.z i * conj w)) ^ (j.val + 1)).re)

/-- The formula of the field outside of the borehole. -/
def Sec.outF (s : Sec n) (Tb : ℝ) (q : Fin n → ℝ) (P : Fin n → Fin J → ℂ) (w : ℂ) : ℝ :=
  Tb + ∑ i, q i * s.pikg * ((1 + s.sigma) * log ‖(s.rb : ℂ) / (w - s.z i)‖ + s.sigma * (1 + s.sigma) / (1 - s.sigma) * log ‖(s.rb : ℂ) / w‖)
    + ∑ i, ∑ j : Fin J, (1 + s.sigma) * (P i j * (s.r i / (w - s.z i)) ^ (j.val + 1)).re

theorem field_in {s : Sec n} (Tb : ℝ) (q : Fin n → ℝ) (P : Fin n → Fin J → ℂ) (Tf : Fin n → ℝ) {w : ℂ} (hr : ∀ i, 0 < s.r i)
    (hw : ∀ i, s.r i ≤ ‖w - s.z i‖) (hb : ‖w‖ ≤ s.rb) : s.field Tb q P Tf w = s.inF Tb q P w := by
  rw [field_outside s Tb q P Tf hr hw]
  simp only [W0_re hb, WJ_re hb]
  rfl

theorem field_out {s : Sec n} (Tb : ℝ) (q : Fin n → ℝ) (P : Fin n → Fin J → ℂ) (Tf : Fin n → ℝ) {w : ℂ} (hr : ∀ i, 0 < s.r i)
    (hw : ∀ i, s.r i ≤ ‖w - s.z i‖) (hb : ¬ ‖w‖ ≤ s.rb) : s.field Tb q P Tf w = s.outF Tb q P w := by
  rw [field_outside s Tb q P Tf hr hw]
  simp only [W0_re_out hb, WJ_re_out hb]
  rfl

/-- On the wall, images are the sources. -/
theorem wall_image {rb : ℝ} (hrb : 0 < rb) {w : ℂ} (hw : ‖w‖ = rb) (a : ℂ) : (rb : ℂ) ^ 2 - a * conj w = (w - a) * conj w := by
  have : (rb : ℂ) ^ 2 = w * conj w := by
    rw [Complex.mul_conj, Complex.normSq_eq_norm_sq, hw]; push_cast; rfl
  rw [this]; ring

/-- Both formulas agree on the wall. -/
theorem in_eq_out {s : Sec n} (h : s.Geo) (Tb : ℝ) (q : Fin n → ℝ) (P : Fin n → Fin J → ℂ) {w : ℂ} (hw : ‖w‖ = s.rb) : s.inF Tb q P w = s.outF Tb q P w := by
  have hb := h.rb
  have hbc : (s.rb : ℂ) ≠ 0 := by exact_mod_cast hb.ne'
  have hw0 : w ≠ 0 := by intro hc; rw [hc, norm_zero] at hw; linarith
  have hcw : conj w ≠ 0 := (map_ne_zero _).mpr hw0
  have hne : ∀ i, w - s.z i ≠ 0 := fun i hc => by
    have := h.lt i; rw [← sub_eq_zero.mp hc, hw] at this; linarith
  unfold Sec.inF Sec.outF
  congr 1
  · congr 1
    refine Finset.sum_congr rfl fun i _ => ?_
    have e1 : ‖(s.rb : ℂ) ^ 2 / ((s.rb : ℂ) ^ 2 - s.z i * conj w)‖ = ‖(s.rb : ℂ) / (w - s.z i)‖ := by
      rw [wall_image hb hw, norm_div, norm_mul, norm_div, RCLike.norm_conj, norm_pow, hw, Complex.norm_real, Real.norm_of_nonneg hb.le]
      have := norm_ne_zero_iff.mpr (hne i)
      field_simp
    have e2 : ‖(s.rb : ℂ) / w‖ = 1 := by
      rw [norm_div, Complex.norm_real, Real.norm_of_nonneg hb.le, hw, div_self hb.ne']
    rw [e1, e2, log_one]
    ring
  · refine Finset.sum_congr rfl fun i _ => Finset.sum_congr rfl fun j _ => ?_
    have e : (s.r i * conj w) / ((s.rb : ℂ) ^ 2 - s.z i * conj w) = s.r i / (w - s.z i) := by
      rw [wall_image hb hw, mul_div_mul_right _ _ hcw]
    rw [e]
    ring

/-- **C65** (temperature).  The returned temperature is continuous on the region outside of the pipes, in particular across the borehole wall. -/
theorem field_continuous (s : Sec n) (h : s.Geo) (Tb : ℝ) (q : Fin n → ℝ) (J : ℕ) (eps : ℝ) (itMax : ℕ) :
    ContinuousOn (s.multipole Tb q J eps itMax).2.1 {w | ∀ i, s.r i ≤ ‖w - s.z i‖} := by
  show ContinuousOn (s.field Tb q _ _) _
  generalize (s.poles q J eps itMax).P = P
  generalize s.fluid Tb q P = Tf
  have hb := h.rb
  have hbc : (s.rb : ℂ) ≠ 0 := by exact_mod_cast hb.ne'
  have hne : ∀ w, (∀ i, s.r i ≤ ‖w - s.z i‖) → ∀ i, w - s.z i ≠ 0 := fun w hw i hc => by
    have := hw i; rw [hc, norm_zero] at this; linarith [h.r i]
  have hU : {w : ℂ | ∀ i, s.r i ≤ ‖w - s.z i‖} = ({w | ∀ i, s.r i ≤ ‖w - s.z i‖} ∩ {w | ‖w‖ ≤ s.rb}) ∪ ({w | ∀ i, s.r i ≤ ‖w - s.z i‖} ∩ {w | s.rb ≤ ‖w‖}) := by
    ext w
    simp only [Set.mem_union, Set.mem_inter_iff, Set.mem_ofPred_eq]
    constructor
    · intro hw
      rcases le_total ‖w‖ s.rb with h1 | h1
      · exact Or.inl ⟨hw, h1⟩
      · exact Or.inr ⟨hw, h1⟩
    · rintro (h1 | h1) <;> exact h1.1
  have hcl : IsClosed {w : ℂ | ∀ i, s.r i ≤ ‖w - s.z i‖} := by
    rw [Set.ofPred_forall]
    exact isClosed_iInter fun i => isClosed_le (by fun_prop) (by fun_prop)
  rw [hU]
  refine ContinuousOn.union_of_isClosed ?_ ?_ (hcl.inter (isClosed_le (by fun_prop) (by fun_prop))) (hcl.inter (isClosed_le (by fun_prop) (by fun_prop)))
  · refine ContinuousOn.congr (f := s.inF Tb q P) ?_ fun w hw => field_in Tb q P Tf h.r hw.1 hw.2
    have him : ∀ w ∈ {w : ℂ | ∀ i, s.r i ≤ ‖w - s.z i‖} ∩ {w | ‖w‖ ≤ s.rb}, ∀ i, (s.rb : ℂ) ^ 2 - s.z i * conj w ≠ 0 := fun w hw i => image_ne' (h.lt i) hw.2
    unfold Sec.inF
    refine ContinuousOn.add (ContinuousOn.add continuousOn_const (continuousOn_finsetSum _ fun i _ => ?_))
      (continuousOn_finsetSum _ fun i _ => continuousOn_finsetSum _ fun j _ => ?_)
    · refine ContinuousOn.mul continuousOn_const (ContinuousOn.add ?_ (ContinuousOn.mul continuousOn_const ?_))
      · exact ContinuousOn.log (ContinuousOn.norm (ContinuousOn.div (by fun_prop) (by fun_prop) fun w hw => hne w hw.1 i))
          fun w hw => norm_ne_zero_iff.mpr (div_ne_zero hbc (hne w hw.1 i))
      · exact ContinuousOn.log (ContinuousOn.norm (ContinuousOn.div (by fun_prop) (by fun_prop) fun w hw => him w hw i))
          fun w hw => norm_ne_zero_iff.mpr (div_ne_zero (pow_ne_zero _ hbc) (him w hw i))
    · refine ContinuousOn.add (Complex.continuous_re.comp_continuousOn ?_) (ContinuousOn.mul continuousOn_const (Complex.continuous_re.comp_continuousOn ?_))
      · exact ContinuousOn.mul (by fun_prop) (ContinuousOn.pow (ContinuousOn.div (by fun_prop) (by fun_prop) fun w hw => hne w hw.1 i) _)
      · exact ContinuousOn.mul (by fun_prop) (ContinuousOn.pow (ContinuousOn.div (by fun_prop) (by fun_prop) fun w hw => him w hw i) _)
  · refine ContinuousOn.congr (f := s.outF Tb q P) ?_ fun w hw => ?_
    · have hw0 : ∀ w ∈ {w : ℂ | ∀ i, s.r i ≤ ‖w - s.z i‖} ∩ {w | s.rb ≤ ‖w‖}, w ≠ 0 := fun w hw hc => by
        have := hw.2; rw [Set.mem_ofPred_eq, hc, norm_zero] at this; linarith
      unfold Sec.outF
      refine ContinuousOn.add (ContinuousOn.add continuousOn_const (continuousOn_finsetSum _ fun i _ => ?_))
        (continuousOn_finsetSum _ fun i _ => continuousOn_finsetSum _ fun j _ => ?_)
      · refine ContinuousOn.mul continuousOn_const (ContinuousOn.add (ContinuousOn.mul continuousOn_const ?_) (ContinuousOn.mul continuousOn_const ?_))
        · exact ContinuousOn.log (ContinuousOn.norm (ContinuousOn.div (by fun_prop) (by fun_prop) fun w hw => hne w hw.1 i))
            fun w hw => norm_ne_zero_iff.mpr (div_ne_zero hbc (hne w hw.1 i))
        · exact ContinuousOn.log (ContinuousOn.norm (ContinuousOn.div (by fun_prop) (by fun_prop) fun w hw => hw0 w hw))
            fun w hw => norm_ne_zero_iff.mpr (div_ne_zero hbc (hw0 w hw))
      · refine ContinuousOn.mul continuousOn_const (Complex.continuous_re.comp_continuousOn ?_)
        exact ContinuousOn.mul (by fun_prop) (ContinuousOn.pow (ContinuousOn.div (by fun_prop) (by fun_prop) fun w hw => hne w hw.1 i) _)
    · by_cases hlt : ‖w‖ ≤ s.rb
      · rw [field_in Tb q P Tf h.r hw.1 hlt, in_eq_out h Tb q P (le_antisymm hlt hw.2)]
      · exact field_out Tb q P Tf h.r hw.1 hlt

/-! ### Heat flux -/

theorem hasDerivAt_log_norm {f : ℝ → ℂ} {f' : ℂ} {t : ℝ} (hf : HasDerivAt f f' t) (h0 : f t ≠ 0) :
    HasDerivAt (fun t => log ‖f t‖) (f' / f t).re t := by
  have h1 := hf.norm_sq
  have hn : ‖f t‖ ^ 2 ≠ 0 := pow_ne_zero _ (norm_ne_zero_iff.mpr h0)
  have h2 := (h1.log hn).const_mul (1 / 2 : ℝ)
  have e : (fun t => log ‖f t‖) = fun t => (1 / 2 : ℝ) * log (‖f t‖ ^ 2) := by
    funext t; rw [log_pow]; push_cast; ring
  rw [e]
  refine h2.congr_deriv ?_
  rw [Complex.inner, Complex.div_re, ← Complex.normSq_eq_norm_sq, Complex.mul_re, Complex.conj_re, Complex.conj_im]
  rw [← Complex.normSq_eq_norm_sq] at hn
  field_simp
  ring

theorem hasDerivAt_re {f : ℝ → ℂ} {f' : ℂ} {t : ℝ} (hf : HasDerivAt f f' t) : HasDerivAt (fun t => (f t).re) f'.re t :=
  Complex.reCLM.hasFDerivAt.comp_hasDerivAt t hf

theorem hasDerivAt_ray (e a : ℂ) (t : ℝ) : HasDerivAt (fun t : ℝ => (t : ℂ) * e - a) e t := by
  have := ((Complex.ofRealCLM.hasDerivAt (x := t)).mul_const e).sub_const a
  simpa using this

/-- Radial derivative of a line source. -/
theorem deriv_log {rb : ℝ} (hrb : 0 < rb) (e a : ℂ) {t : ℝ} (h0 : (t : ℂ) * e - a ≠ 0) :
    HasDerivAt (fun t : ℝ => log ‖(rb : ℂ) / ((t : ℂ) * e - a)‖) (-(e / ((t : ℂ) * e - a)).re) t := by
  have h1 := hasDerivAt_log_norm (hasDerivAt_ray e a t) h0
  have hev : (fun t : ℝ => log ‖(rb : ℂ) / ((t : ℂ) * e - a)‖) =ᶠ[nhds t] fun t => log rb - log ‖(t : ℂ) * e - a‖ := by
    have : ∀ᶠ u : ℝ in nhds t, (u : ℂ) * e - a ≠ 0 := (hasDerivAt_ray e a t).continuousAt.eventually_ne h0
    filter_upwards [this] with u hu
    rw [norm_div, Complex.norm_real, Real.norm_of_nonneg hrb.le, log_div hrb.ne' (norm_ne_zero_iff.mpr hu)]
  refine HasDerivAt.congr_of_eventuallyEq ?_ hev
  exact (h1.const_sub (log rb))

theorem conj_ray (e : ℂ) (t : ℝ) : conj ((t : ℂ) * e) = t * conj e := by
  rw [map_mul, Complex.conj_ofReal]

theorem hasDerivAt_image (rb : ℝ) (e a : ℂ) (t : ℝ) : HasDerivAt (fun t : ℝ => (rb : ℂ) ^ 2 - a * ((t : ℂ) * conj e)) (-(a * conj e)) t := by
  have := (((Complex.ofRealCLM.hasDerivAt (x := t)).mul_const (conj e)).const_mul a).const_sub ((rb : ℂ) ^ 2)
  simpa using this

/-- Radial derivative of the image of a line source. -/
theorem deriv_log_image {rb : ℝ} (hrb : 0 < rb) (e a : ℂ) {t : ℝ} (h0 : (rb : ℂ) ^ 2 - a * ((t : ℂ) * conj e) ≠ 0) :
    HasDerivAt (fun t : ℝ => log ‖(rb : ℂ) ^ 2 / ((rb : ℂ) ^ 2 - a * conj ((t : ℂ) * e))‖) (a * conj e / ((rb : ℂ) ^ 2 - a * ((t : ℂ) * conj e))).re t := by
  simp only [conj_ray]
  have h1 := hasDerivAt_log_norm (hasDerivAt_image rb e a t) h0
  have hev : (fun t : ℝ => log ‖(rb : ℂ) ^ 2 / ((rb : ℂ) ^ 2 - a * ((t : ℂ) * conj e))‖) =ᶠ[nhds t]
      fun t => log (rb ^ 2) - log ‖(rb : ℂ) ^ 2 - a * ((t : ℂ) * conj e)‖ := by
    have : ∀ᶠ u : ℝ in nhds t, (rb : ℂ) ^ 2 - a * ((u : ℂ) * conj e) ≠ 0 := (hasDerivAt_image rb e a t).continuousAt.eventually_ne h0
    filter_upwards [this] with u hu
    rw [norm_div, norm_pow, Complex.norm_real, Real.norm_of_nonneg hrb.le, log_div (pow_ne_zero _ hrb.ne') (norm_ne_zero_iff.mpr hu)]
  refine HasDerivAt.congr_of_eventuallyEq ?_ hev
  refine (h1.const_sub (log (rb ^ 2))).congr_deriv ?_
  rw [neg_div, Complex.neg_re, neg_neg]

/-- Radial derivative of a multipole. -/
theorem deriv_pole (P : ℂ) (r : ℝ) (e a : ℂ) {t : ℝ} (h0 : (t : ℂ) * e - a ≠ 0) (j : ℕ) :
    HasDerivAt (fun t : ℝ => (P * ((r : ℂ) / ((t : ℂ) * e - a)) ^ (j + 1)).re)
      (-(P * ((j + 1) * (r / ((t : ℂ) * e - a)) ^ j * (r * e / ((t : ℂ) * e - a) ^ 2))).re) t := by
  have h1 := (((hasDerivAt_const t (r : ℂ)).div (hasDerivAt_ray e a t) h0).pow (j + 1)).const_mul P
  refine (hasDerivAt_re h1).congr_deriv ?_
  rw [← Complex.neg_re]
  congr 1
  push_cast
  simp only [Pi.div_apply]
  ring

/-- Radial derivative of the image of a multipole. -/
theorem deriv_pole_image (P : ℂ) (r rb : ℝ) (e a : ℂ) {t : ℝ} (h0 : (rb : ℂ) ^ 2 - a * ((t : ℂ) * conj e) ≠ 0) (j : ℕ) :
    HasDerivAt (fun t : ℝ => (P * ((r * conj ((t : ℂ) * e)) / ((rb : ℂ) ^ 2 - a * conj ((t : ℂ) * e))) ^ (j + 1)).re)
      (P * ((j + 1) * ((r * (t * conj e)) / ((rb : ℂ) ^ 2 - a * (t * conj e))) ^ j * (r * conj e * rb ^ 2 / ((rb : ℂ) ^ 2 - a * (t * conj e)) ^ 2))).re t := by
  simp only [conj_ray]
  have hnum : HasDerivAt (fun t : ℝ => (r : ℂ) * ((t : ℂ) * conj e)) (r * conj e) t := by
    have := ((Complex.ofRealCLM.hasDerivAt (x := t)).mul_const (conj e)).const_mul (r : ℂ)
    simpa using this
  have h1 := ((hnum.div (hasDerivAt_image rb e a t) h0).pow (j + 1)).const_mul P
  refine (hasDerivAt_re h1).congr_deriv ?_
  congr 1
  push_cast
  simp only [Pi.div_apply]
  ring

/-- **C65** (heat flux).  At every point of the borehole wall that no pipe touches, the conductivity of the grout times the radial derivative of the returned
temperature from inside equals the conductivity of the soil times the radial derivative from outside. -/
theorem wall_flux (s : Sec n) (h : s.Geo) (Tb : ℝ) (q : Fin n → ℝ) (J : ℕ) (eps : ℝ) (itMax : ℕ) (e : ℂ) (he : ‖e‖ = 1)
    (hfree : ∀ i, s.r i < ‖(s.rb : ℂ) * e - s.z i‖) :
    ∃ d d' : ℝ, HasDerivWithinAt (fun ρ : ℝ => (s.multipole Tb q J eps itMax).2.1 (ρ * e)) d (Set.Iic s.rb) s.rb ∧
      HasDerivWithinAt (fun ρ : ℝ => (s.multipole Tb q J eps itMax).2.1 (ρ * e)) d' (Set.Ici s.rb) s.rb ∧ s.kg * d = s.ks * d' := by
  show ∃ d d' : ℝ, HasDerivWithinAt (fun ρ : ℝ => s.field Tb q _ _ (ρ * e)) d (Set.Iic s.rb) s.rb ∧
      HasDerivWithinAt (fun ρ : ℝ => s.field Tb q _ _ (ρ * e)) d' (Set.Ici s.rb) s.rb ∧ s.kg * d = s.ks * d'
  generalize (s.poles q J eps itMax).P = P
  generalize s.fluid Tb q P = Tf
  have hb := h.rb
  have hbc : (s.rb : ℂ) ≠ 0 := by exact_mod_cast hb.ne'
  have he0 : e ≠ 0 := by intro hc; rw [hc, norm_zero] at he; exact zero_ne_one he
  have hee : e * conj e = 1 := by rw [Complex.mul_conj, Complex.normSq_eq_norm_sq, he]; norm_num
  have hce : conj e ≠ 0 := (map_ne_zero _).mpr he0
  have hnw : ‖(s.rb : ℂ) * e‖ = s.rb := by rw [norm_mul, he, mul_one, Complex.norm_real, Real.norm_of_nonneg hb.le]
  have hne : ∀ i, (s.rb : ℂ) * e - s.z i ≠ 0 := fun i hc => by
    have := hfree i; rw [hc, norm_zero] at this; linarith [h.r i]
  have him : ∀ i, (s.rb : ℂ) ^ 2 - s.z i * ((s.rb : ℂ) * conj e) = ((s.rb : ℂ) * e - s.z i) * (s.rb * conj e) := fun i => by
    linear_combination (-(s.rb : ℂ) ^ 2) * hee
  have him0 : ∀ i, (s.rb : ℂ) ^ 2 - s.z i * ((s.rb : ℂ) * conj e) ≠ 0 := fun i => by
    rw [him]; exact mul_ne_zero (hne i) (mul_ne_zero hbc hce)
  -- points near the wall are outside of pipes
  have hev : ∀ᶠ ρ : ℝ in nhds s.rb, ∀ i, s.r i ≤ ‖(ρ : ℂ) * e - s.z i‖ := by
    rw [Filter.eventually_all]
    intro i
    have hc : Filter.Tendsto (fun ρ : ℝ => ‖(ρ : ℂ) * e - s.z i‖) (nhds s.rb) (nhds ‖(s.rb : ℂ) * e - s.z i‖) :=
      (hasDerivAt_ray e (s.z i) s.rb).continuousAt.norm
    filter_upwards [hc.eventually (lt_mem_nhds (hfree i))] with ρ hρ using hρ.le
  have hnorm : ∀ ρ : ℝ, 0 < ρ → ‖(ρ : ℂ) * e‖ = ρ := fun ρ hρ => by
    rw [norm_mul, he, mul_one, Complex.norm_real, Real.norm_of_nonneg hρ.le]
  have hpos : ∀ᶠ ρ : ℝ in nhds s.rb, 0 < ρ := lt_mem_nhds hb
  -- derivatives of the formulas
  let U : Fin n → ℝ := fun i => (s.z i / ((s.rb : ℂ) * e - s.z i)).re
  let D : Fin n → Fin J → ℝ := fun i j => -(P i j * (((j.val : ℂ) + 1) * (s.r i / ((s.rb : ℂ) * e - s.z i)) ^ j.val * (s.r i * e / ((s.rb : ℂ) * e - s.z i) ^ 2))).re
  have hlog : ∀ i, HasDerivAt (fun t : ℝ => log ‖(s.rb : ℂ) / ((t : ℂ) * e - s.z i)‖) (-(1 + U i) / s.rb) s.rb := fun i => by
    refine (deriv_log hb e (s.z i) (hne i)).congr_deriv ?_
    have : e / ((s.rb : ℂ) * e - s.z i) = ((1 / s.rb : ℝ) : ℂ) * (1 + s.z i / ((s.rb : ℂ) * e - s.z i)) := by
      have := hne i
      push_cast
      rw [div_eq_iff this, mul_assoc, add_mul, one_mul, div_mul_cancel₀ _ this, sub_add_cancel]
      field_simp
    rw [this, Complex.re_ofReal_mul, Complex.add_re, Complex.one_re]
    ring
  have hlogi : ∀ i, HasDerivAt (fun t : ℝ => log ‖(s.rb : ℂ) ^ 2 / ((s.rb : ℂ) ^ 2 - s.z i * conj ((t : ℂ) * e))‖) (U i / s.rb) s.rb := fun i => by
    refine (deriv_log_image hb e (s.z i) (him0 i)).congr_deriv ?_
    have : s.z i * conj e / ((s.rb : ℂ) ^ 2 - s.z i * ((s.rb : ℂ) * conj e)) = ((1 / s.rb : ℝ) : ℂ) * (s.z i / ((s.rb : ℂ) * e - s.z i)) := by
      have := hne i
      rw [him]
      push_cast
      field_simp
    rw [this, Complex.re_ofReal_mul]
    ring
  have hp : ∀ i (j : Fin J), HasDerivAt (fun t : ℝ => (P i j * ((s.r i : ℂ) / ((t : ℂ) * e - s.z i)) ^ (j.val + 1)).re) (D i j) s.rb := fun i j =>
    deriv_pole (P i j) (s.r i) e (s.z i) (hne i) j.val
  have hpi : ∀ i (j : Fin J), HasDerivAt (fun t : ℝ => (P i j * ((s.r i * conj ((t : ℂ) * e)) / ((s.rb : ℂ) ^ 2 - s.z i * conj ((t : ℂ) * e))) ^ (j.val + 1)).re) (- D i j) s.rb := fun i j => by
    refine (deriv_pole_image (P i j) (s.r i) s.rb e (s.z i) (him0 i) j.val).congr_deriv ?_
    show _ = - -_
    rw [neg_neg]
    congr 2
    have hn := hne i
    have e1 : (s.r i * (s.rb * conj e)) / ((s.rb : ℂ) ^ 2 - s.z i * (s.rb * conj e)) = s.r i / ((s.rb : ℂ) * e - s.z i) := by
      rw [him, mul_div_mul_right _ _ (mul_ne_zero hbc hce)]
    have e2 : s.r i * conj e * s.rb ^ 2 / ((s.rb : ℂ) ^ 2 - s.z i * (s.rb * conj e)) ^ 2 = s.r i * e / ((s.rb : ℂ) * e - s.z i) ^ 2 := by
      rw [him, div_eq_div_iff (pow_ne_zero _ (mul_ne_zero hn (mul_ne_zero hbc hce))) (pow_ne_zero _ hn)]
      linear_combination (-(s.r i : ℂ) * conj e * s.rb ^ 2 * ((s.rb : ℂ) * e - s.z i) ^ 2) * hee
    rw [e1, e2]
  have hout : HasDerivAt (fun t : ℝ => log ‖(s.rb : ℂ) / ((t : ℂ) * e)‖) (-1 / s.rb) s.rb := by
    have h0 : (s.rb : ℂ) * e - 0 ≠ 0 := by rw [sub_zero]; exact mul_ne_zero hbc he0
    have := deriv_log hb e 0 h0
    simp only [sub_zero] at this
    refine this.congr_deriv ?_
    have e1 : e / ((s.rb : ℂ) * e) = ((1 / s.rb : ℝ) : ℂ) := by push_cast; field_simp
    rw [e1, Complex.ofReal_re]; ring
  have hin : HasDerivAt (fun t : ℝ => s.inF Tb q P (t * e))
      (∑ i, q i * s.pikg * (-(1 + U i) / s.rb + s.sigma * (U i / s.rb)) + ∑ i, ∑ j : Fin J, (D i j + s.sigma * (- D i j))) s.rb := by
    unfold Sec.inF
    refine HasDerivAt.add (HasDerivAt.const_add _ (HasDerivAt.fun_sum fun i _ => ?_)) (HasDerivAt.fun_sum fun i _ => HasDerivAt.fun_sum fun j _ => ?_)
    · exact ((hlog i).add ((hlogi i).const_mul s.sigma)).const_mul (q i * s.pikg)
    · exact (hp i j).add ((hpi i j).const_mul s.sigma)
  have hot : HasDerivAt (fun t : ℝ => s.outF Tb q P (t * e))
      (∑ i, q i * s.pikg * ((1 + s.sigma) * (-(1 + U i) / s.rb) + s.sigma * (1 + s.sigma) / (1 - s.sigma) * (-1 / s.rb)) + ∑ i, ∑ j : Fin J, (1 + s.sigma) * D i j) s.rb := by
    unfold Sec.outF
    refine HasDerivAt.add (HasDerivAt.const_add _ (HasDerivAt.fun_sum fun i _ => ?_)) (HasDerivAt.fun_sum fun i _ => HasDerivAt.fun_sum fun j _ => ?_)
    · exact (((hlog i).const_mul (1 + s.sigma)).add (hout.const_mul _)).const_mul (q i * s.pikg)
    · exact (hp i j).const_mul (1 + s.sigma)
  refine ⟨_, _, hin.hasDerivWithinAt.congr_of_eventuallyEq ?_ ?_, hot.hasDerivWithinAt.congr_of_eventuallyEq ?_ ?_, ?_⟩
  · filter_upwards [nhdsWithin_le_nhds hev, nhdsWithin_le_nhds hpos, self_mem_nhdsWithin] with ρ h1 h2 h3
    exact field_in Tb q P Tf h.r h1 (by rw [hnorm ρ h2]; exact h3)
  · exact field_in Tb q P Tf h.r (fun i => (hfree i).le) hnw.le
  · filter_upwards [nhdsWithin_le_nhds hev, nhdsWithin_le_nhds hpos, self_mem_nhdsWithin] with ρ h1 h2 h3
    by_cases hle : ‖(ρ : ℂ) * e‖ ≤ s.rb
    · rw [field_in Tb q P Tf h.r h1 hle, in_eq_out h]
      refine le_antisymm hle ?_
      rw [hnorm ρ h2]; exact h3
    · exact field_out Tb q P Tf h.r h1 hle
  · rw [field_in Tb q P Tf h.r (fun i => (hfree i).le) hnw.le, in_eq_out h Tb q P hnw]
  · have hk : s.kg + s.ks ≠ 0 := by have := h.kg; have := h.ks; positivity
    have hks := h.ks.ne'
    have e1 : s.kg * (1 - s.sigma) = s.ks * (1 + s.sigma) := by unfold Sec.sigma; field_simp; ring
    have e2 : 1 - s.sigma ≠ 0 := by
      unfold Sec.sigma
      have : 1 - (s.kg - s.ks) / (s.kg + s.ks) = 2 * s.ks / (s.kg + s.ks) := by field_simp; ring
      rw [this]; exact div_ne_zero (mul_ne_zero two_ne_zero hks) hk
    rw [mul_add, mul_add, Finset.mul_sum, Finset.mul_sum, Finset.mul_sum, Finset.mul_sum]
    congr 1
    · refine Finset.sum_congr rfl fun i _ => ?_
      have e3 : s.kg = s.ks * (1 + s.sigma) / (1 - s.sigma) := by rw [← e1]; field_simp
      rw [e3]
      field_simp
      ring
    · refine Finset.sum_congr rfl fun i _ => ?_
      rw [Finset.mul_sum, Finset.mul_sum]
      refine Finset.sum_congr rfl fun j _ => ?_
      linear_combination D i j * e1

/-- Non-vacuity: the top of the wall of the sample borehole is free. -/
example : ∀ i, sampleSec.r i < ‖(sampleSec.rb : ℂ) * Complex.I - sampleSec.z i‖ := by
  intro i
  have h1 : |(((sampleSec.rb : ℂ) * Complex.I - sampleSec.z i)).im| ≤ ‖(sampleSec.rb : ℂ) * Complex.I - sampleSec.z i‖ := Complex.abs_im_le_norm _
  refine lt_of_lt_of_le ?_ h1
  fin_cases i <;> norm_num [sampleSec, abs_of_pos]

end Verif.Pipe.Pole
