import Verif.Pipe.PoleLocal

/-!
# Property C67: boundary condition at the pipes

At the perimeter of a pipe the heat flux that leaves it must be the one that crosses the fluid to pipe resistance:
`T_f - T = R_fp · 2π r · (-k_g ∂T/∂ρ)`.  The multipole method of order `J` imposes the harmonics `0, …, J` of this equation.
-/

noncomputable section

namespace Verif.Pipe.Pole

open ComplexConjugate Metric Real

variable {n : ℕ}

/-- Radial derivative `g` of the temperature `T` at the outside of the circle of centre `c` and radius `R`. -/
def Radial (T : ℂ → ℝ) (c : ℂ) (R : ℝ) (g : ℂ → ℝ) : Prop :=
  ∀ e : ℂ, ‖e‖ = 1 → HasDerivWithinAt (fun ρ : ℝ => T (c + ρ * e)) (g e) (Set.Ici R) R

/-- Harmonic `k` of the real function `f` on the unit circle. -/
def Harmonic (f : ℂ → ℝ) (k : ℕ) : ℂ := circleAverage (fun e => (f e : ℂ) * (e ^ k)⁻¹) 0 1

/-- Radial derivatives are unique. -/
theorem radial_unique {T : ℂ → ℝ} {c : ℂ} {R : ℝ} {g g' : ℂ → ℝ} (h : Radial T c R g) (h' : Radial T c R g') (e : ℂ) (he : ‖e‖ = 1) : g e = g' e :=
  (uniqueDiffWithinAt_Ici R).eq_deriv _ (h e he) (h' e he)

variable {J : ℕ}

theorem pipe_radial (s : Sec n) (h : s.Geo) {m : Fin n} (hf : s.Free m) (Tb : ℝ) (q : Fin n → ℝ) (P : Fin n → Fin J → ℂ) (Tf : Fin n → ℝ) :
    Radial (s.field Tb q P Tf) (s.z m) (s.r m) fun e =>
      (-(q m * s.pikg) + ∑ j : Fin J, ((-((j.val : ℂ) + 1) * P m j) * e⁻¹ ^ (j.val + 1)).re + (e * deriv (s.reg q P m) e).re) / s.r m := by
  intro e he
  have hr := h.r m
  have hrc : (s.r m : ℂ) ≠ 0 := by exact_mod_cast hr.ne'
  have he0 : e ≠ 0 := by intro hc; rw [hc, norm_zero] at he; exact zero_ne_one he
  have hmem : e ∈ closedBall (0 : ℂ) |(1 : ℝ)| := by rw [abs_one, mem_closedBall, dist_zero_right, he]
  -- the scaled ray
  have hray : HasDerivAt (fun t : ℝ => ((t / s.r m : ℝ) : ℂ) * e) (e / s.r m) (s.r m) := by
    have h1 : HasDerivAt (fun t : ℝ => (t / s.r m : ℝ)) (1 / s.r m) (s.r m) := (hasDerivAt_id (s.r m)).div_const _
    have h2 := (h1.ofReal_comp).mul_const e
    refine h2.congr_deriv ?_
    push_cast; ring
  have hat : ((s.r m / s.r m : ℝ) : ℂ) * e = e := by rw [div_self hr.ne', Complex.ofReal_one, one_mul]
  have hlogd : HasDerivAt (fun t : ℝ => log ‖((t / s.r m : ℝ) : ℂ) * e‖) (1 / s.r m) (s.r m) := by
    refine (hasDerivAt_log_norm hray (by rw [hat]; exact he0)).congr_deriv ?_
    rw [hat, div_right_comm, div_self he0, ← Complex.ofReal_one, ← Complex.ofReal_div, Complex.ofReal_re]
  have hpole : ∀ j : Fin J, HasDerivAt (fun t : ℝ => (P m j * (((t / s.r m : ℝ) : ℂ) * e)⁻¹ ^ (j.val + 1)).re)
      (((-((j.val : ℂ) + 1) * P m j) * e⁻¹ ^ (j.val + 1)).re / s.r m) (s.r m) := fun j => by
    have h1 := ((hray.fun_inv (by rw [hat]; exact he0)).fun_pow (j.val + 1)).const_mul (P m j)
    refine (hasDerivAt_re h1).congr_deriv ?_
    rw [hat, div_eq_mul_inv _ (s.r m), mul_comm _ (s.r m)⁻¹, ← Complex.re_ofReal_mul]
    congr 1
    push_cast
    have hs : -(e / (s.r m : ℂ)) / e ^ 2 = -((s.r m : ℂ)⁻¹ * e⁻¹) := by field_simp
    rw [hs, pow_succ]
    ring
  have hreg : HasDerivAt (fun t : ℝ => (s.reg q P m (((t / s.r m : ℝ) : ℂ) * e)).re) ((e * deriv (s.reg q P m) e).re / s.r m) (s.r m) := by
    have h1 : HasDerivAt (s.reg q P m) (deriv (s.reg q P m) e) (((s.r m / s.r m : ℝ) : ℂ) * e) := by
      rw [hat]; exact (s.reg_diff q P m (hf.disc h hmem)).hasDerivAt
    have h2 : HasDerivAt (fun t : ℝ => s.reg q P m (((t / s.r m : ℝ) : ℂ) * e)) (deriv (s.reg q P m) e * (e / s.r m)) (s.r m) :=
      HasDerivAt.comp_of_eq (s.r m) h1 hray rfl
    refine (hasDerivAt_re h2).congr_deriv ?_
    rw [div_eq_mul_inv _ (s.r m), mul_comm _ (s.r m)⁻¹, ← Complex.re_ofReal_mul]
    congr 1
    push_cast
    ring
  have hall : HasDerivAt (fun t : ℝ => s.c0 Tb q m - q m * s.pikg * log ‖((t / s.r m : ℝ) : ℂ) * e‖
      + ∑ j : Fin J, (P m j * (((t / s.r m : ℝ) : ℂ) * e)⁻¹ ^ (j.val + 1)).re + (s.reg q P m (((t / s.r m : ℝ) : ℂ) * e)).re)
      (-(q m * s.pikg * (1 / s.r m)) + ∑ j : Fin J, ((-((j.val : ℂ) + 1) * P m j) * e⁻¹ ^ (j.val + 1)).re / s.r m + (e * deriv (s.reg q P m) e).re / s.r m) (s.r m) :=
    (((hlogd.const_mul (q m * s.pikg)).const_sub (s.c0 Tb q m)).add (HasDerivAt.fun_sum fun j _ => hpole j)).add hreg
  have hval : (-(q m * s.pikg * (1 / s.r m)) + ∑ j : Fin J, ((-((j.val : ℂ) + 1) * P m j) * e⁻¹ ^ (j.val + 1)).re / s.r m + (e * deriv (s.reg q P m) e).re / s.r m)
      = (-(q m * s.pikg) + ∑ j : Fin J, ((-((j.val : ℂ) + 1) * P m j) * e⁻¹ ^ (j.val + 1)).re + (e * deriv (s.reg q P m) e).re) / s.r m := by
    rw [← Finset.sum_div]; ring
  show HasDerivWithinAt _ ((-(q m * s.pikg) + ∑ j : Fin J, ((-((j.val : ℂ) + 1) * P m j) * e⁻¹ ^ (j.val + 1)).re + (e * deriv (s.reg q P m) e).re) / s.r m) _ _
  rw [← hval]
  -- near the perimeter the field is the local formula
  have hnear : ∀ᶠ t : ℝ in nhds (s.r m), ((t / s.r m : ℝ) : ℂ) * e ∈ s.near m :=
    hray.continuousAt.eventually_mem (by rw [hat]; exact (s.near_open m).mem_nhds (hf.disc h hmem))
  have hray' : ∀ a : ℂ, ContinuousAt (fun t : ℝ => s.z m + (t : ℂ) * e - a) (s.r m) := fun a => by fun_prop
  have hins : ∀ᶠ t : ℝ in nhds (s.r m), ‖s.z m + (t : ℂ) * e‖ ≤ s.rb := by
    have hc : Filter.Tendsto (fun t : ℝ => ‖s.z m + (t : ℂ) * e - 0‖) (nhds (s.r m)) (nhds ‖s.z m + (s.r m : ℂ) * e - 0‖) := (hray' 0).norm
    have hlt : ‖s.z m + (s.r m : ℂ) * e - 0‖ < s.rb := by
      rw [sub_zero]
      refine lt_of_le_of_lt (norm_add_le _ _) ?_
      rw [norm_mul, he, mul_one, Complex.norm_real, Real.norm_of_nonneg hr.le]
      exact hf.inside
    filter_upwards [hc.eventually (gt_mem_nhds hlt)] with t ht
    rw [sub_zero] at ht
    exact ht.le
  have hout : ∀ᶠ t : ℝ in nhds (s.r m), ∀ i, m ≠ i → s.r i ≤ ‖s.z m + (t : ℂ) * e - s.z i‖ := by
    rw [Filter.eventually_all]
    intro i
    rw [Filter.eventually_all]
    intro hi
    have hlt : s.r i < ‖s.z m + (s.r m : ℂ) * e - s.z i‖ := by
      have h1 := hf.apart i hi
      have h2 := norm_sub_norm_le (s.z m - s.z i) (-((s.r m : ℂ) * e))
      rw [norm_neg, norm_mul, he, mul_one, Complex.norm_real, Real.norm_of_nonneg hr.le, sub_neg_eq_add] at h2
      have e1 : s.z m - s.z i + (s.r m : ℂ) * e = s.z m + (s.r m : ℂ) * e - s.z i := by ring
      rw [e1] at h2
      linarith
    filter_upwards [(hray' (s.z i)).norm.eventually (lt_mem_nhds hlt)] with t ht using ht.le
  have hpos : ∀ᶠ t : ℝ in nhds (s.r m), 0 < t := lt_mem_nhds hr
  have key : ∀ t : ℝ, ((t / s.r m : ℝ) : ℂ) * e ∈ s.near m → ‖s.z m + (t : ℂ) * e‖ ≤ s.rb → (∀ i, m ≠ i → s.r i ≤ ‖s.z m + (t : ℂ) * e - s.z i‖) → 0 < t →
      s.r m ≤ t → s.field Tb q P Tf (s.z m + t * e) = s.c0 Tb q m - q m * s.pikg * log ‖((t / s.r m : ℝ) : ℂ) * e‖
      + ∑ j : Fin J, (P m j * (((t / s.r m : ℝ) : ℂ) * e)⁻¹ ^ (j.val + 1)).re + (s.reg q P m (((t / s.r m : ℝ) : ℂ) * e)).re := by
    intro t h1 h2 h3 h4 h5
    rw [field_in Tb q P Tf h.r (fun i => ?_) h2]
    · have e1 : s.z m + (t : ℂ) * e = s.z m + s.r m * (((t / s.r m : ℝ) : ℂ) * e) := by push_cast; field_simp
      rw [e1]
      refine hf.inF_local h Tb q P h1 (mul_ne_zero ?_ he0)
      exact_mod_cast (div_pos h4 hr).ne'
    · by_cases hi : m = i
      · subst hi
        rw [add_sub_cancel_left, norm_mul, he, mul_one, Complex.norm_real, Real.norm_of_nonneg h4.le]
        exact h5
      · exact h3 i hi
  refine hall.hasDerivWithinAt.congr_of_eventuallyEq ?_ ?_
  · filter_upwards [nhdsWithin_le_nhds hnear, nhdsWithin_le_nhds hins, nhdsWithin_le_nhds hout, nhdsWithin_le_nhds hpos, self_mem_nhdsWithin] with t h1 h2 h3 h4 h5
    exact key t h1 h2 h3 h4 h5
  · exact key _ hnear.self_of_nhds hins.self_of_nhds hout.self_of_nhds hr le_rfl

theorem Harmonic_eq (f : ℂ → ℝ) (k : ℕ) : Harmonic f k = har (fun e => (f e : ℂ)) k := rfl

/-- **C67** (heat leaving the pipe).  The radial heat flux of the returned field around each pipe adds up to the heat flow of the pipe, for every number of
multipoles and iterations. -/
theorem pipe_heat (s : Sec n) (h : s.Geo) (m : Fin n) (hf : s.Free m) (Tb : ℝ) (q : Fin n → ℝ) (J : ℕ) (eps : ℝ) (itMax : ℕ) :
    ∃ g, Radial (s.multipole Tb q J eps itMax).2.1 (s.z m) (s.r m) g ∧ 2 * π * s.r m * (-s.kg * circleAverage g 0 1) = q m := by
  refine ⟨_, pipe_radial s h hf Tb q _ _, ?_⟩
  generalize (s.poles q J eps itMax).P = P
  have hr := h.r m
  have hk := h.kg
  have hD := hf.reg_deriv h q P
  have hxD : Hd (fun x => x * deriv (s.reg q P m) x) := fun x hx => differentiableAt_id.mul (hD x hx)
  have hsing : ∀ j : Fin J, ContinuousOn (fun x : ℂ => ((-((j.val : ℂ) + 1) * P m j) * x⁻¹ ^ (j.val + 1)).re) (sphere (0 : ℂ) |(1 : ℝ)|) := fun j => by
    refine Complex.continuous_re.comp_continuousOn (ContinuousOn.mul continuousOn_const (ContinuousOn.pow (ContinuousOn.inv₀ continuousOn_id ?_) _))
    exact fun x hx => (unit_ne hx).2.1
  have hregc : ContinuousOn (fun x => (x * deriv (s.reg q P m) x).re) (sphere (0 : ℂ) |(1 : ℝ)|) := Complex.continuous_re.comp_continuousOn hxD.cc
  have i1 : ∀ j : Fin J, CircleIntegrable (fun x : ℂ => ((-((j.val : ℂ) + 1) * P m j) * x⁻¹ ^ (j.val + 1)).re) 0 1 := fun j => ContinuousOn.circleIntegrable' (hsing j)
  have i2 : CircleIntegrable (fun x => (x * deriv (s.reg q P m) x).re) 0 1 := ContinuousOn.circleIntegrable' hregc
  have a1 : ∀ j : Fin J, circleAverage (fun x : ℂ => ((-((j.val : ℂ) + 1) * P m j) * x⁻¹ ^ (j.val + 1)).re) 0 1 = 0 := fun j => by
    have := average_pole_in (-((j.val : ℂ) + 1) * P m j) 1 (c := 0) (a := 0) (R := 1) one_pos (by simp) j.val
    simpa only [Complex.ofReal_one, sub_zero, one_div] using this
  have a2 : circleAverage (fun x => (x * deriv (s.reg q P m) x).re) 0 1 = 0 := by
    rw [average_re (g := fun x => x * deriv (s.reg q P m) x) fun x hx => (hxD x hx).differentiableWithinAt, zero_mul, Complex.zero_re]
  have e : circleAverage (fun e => (-(q m * s.pikg) + ∑ j : Fin J, ((-((j.val : ℂ) + 1) * P m j) * e⁻¹ ^ (j.val + 1)).re + (e * deriv (s.reg q P m) e).re) / s.r m) 0 1
      = -(q m * s.pikg) / s.r m := by
    have i3 : CircleIntegrable (fun x : ℂ => ∑ j : Fin J, ((-((j.val : ℂ) + 1) * P m j) * x⁻¹ ^ (j.val + 1)).re) 0 1 := CircleIntegrable.fun_sum _ fun j _ => i1 j
    have i4 : CircleIntegrable (fun x : ℂ => -(q m * s.pikg) + ∑ j : Fin J, ((-((j.val : ℂ) + 1) * P m j) * x⁻¹ ^ (j.val + 1)).re) 0 1 :=
      CircleIntegrable.add (circleIntegrable_const _ _ _) i3
    simp only [div_eq_inv_mul]
    have := circleAverage_fun_smul (f := fun e => -(q m * s.pikg) + ∑ j : Fin J, ((-((j.val : ℂ) + 1) * P m j) * e⁻¹ ^ (j.val + 1)).re + (e * deriv (s.reg q P m) e).re)
      (a := (s.r m)⁻¹) (c := 0) (R := 1)
    simp only [smul_eq_mul] at this
    rw [this, circleAverage_fun_add i4 i2, circleAverage_fun_add (circleIntegrable_const _ _ _) i3, circleAverage_const, circleAverage_fun_sum fun j _ => i1 j, a2,
      Finset.sum_congr rfl fun j _ => a1 j, Finset.sum_const_zero]
    ring
  rw [e]
  unfold Sec.pikg
  have := pi_ne_zero
  field_simp

/-- **C67** (boundary condition).  Let `P` be the multipoles that the iteration of `multipole` ended with.  Harmonic `k ≤ J` of the mismatch between the
temperature drop from fluid to perimeter and the one that drives the radial heat flux through the fluid to pipe resistance is
`(1 + k β)/2` times the conjugate of the change that one more iteration would make to the multipole. -/
theorem pipe_wall (s : Sec n) (h : s.Geo) (m : Fin n) (hf : s.Free m) (hR : 0 ≤ s.Rfp m) (Tb : ℝ) (q : Fin n → ℝ) (J : ℕ) (eps : ℝ) (itMax : ℕ) (k : Fin J) :
    let Tf := (s.multipole Tb q J eps itMax).1
    let T := (s.multipole Tb q J eps itMax).2.1
    let P := (s.poles q J eps itMax).P
    ∃ g, Radial T (s.z m) (s.r m) g ∧
      Harmonic (fun e => Tf m - T (s.z m + s.r m * e) - s.Rfp m * (2 * π * s.r m * (-s.kg * g e))) (k.val + 1) =
        (((1 + (k.val + 1) * s.beta m) / 2 : ℝ) : ℂ) * conj (s.next q P m k - P m k) := by
  intro Tf T P
  refine ⟨_, pipe_radial s h hf Tb q P Tf, ?_⟩
  have hr := h.r m
  have hk := h.kg
  have hD := hf.reg_deriv h q P
  have hreg := hf.reg_hd h q P
  have hbeta : 0 ≤ s.beta m := by unfold Sec.beta; positivity
  have h1b : (1 + ((k.val : ℝ) + 1) * s.beta m) ≠ 0 := by positivity
  let G : ℂ → ℂ := fun x => (-1 : ℂ) * s.reg q P m x + (s.beta m : ℂ) * (x * deriv (s.reg q P m) x)
  have hxD : Hd (fun x => x * deriv (s.reg q P m) x) := fun x hx => differentiableAt_id.mul (hD x hx)
  have hG1 : Hd (fun x => (-1 : ℂ) * s.reg q P m x) := fun x hx => (hreg x hx).const_mul _
  have hG2 : Hd (fun x => (s.beta m : ℂ) * (x * deriv (s.reg q P m) x)) := fun x hx => (hxD x hx).const_mul _
  have hG : Hd G := fun x hx => (hG1 x hx).add (hG2 x hx)
  let C : ℝ := Tf m - s.c0 Tb q m - s.beta m * (q m * s.pikg)
  let Q : Fin J → ℂ := fun j => ((-(1 + ((j.val : ℝ) + 1) * s.beta m) : ℝ) : ℂ) * P m j
  have hpt : ∀ x : ℂ, ‖x‖ = 1 →
      ((Tf m - T (s.z m + s.r m * x) - s.Rfp m * (2 * π * s.r m * (-s.kg * ((-(q m * s.pikg) + ∑ j : Fin J, ((-((j.val : ℂ) + 1) * P m j) * x⁻¹ ^ (j.val + 1)).re
        + (x * deriv (s.reg q P m) x).re) / s.r m))) : ℝ) : ℂ)
      = ((C : ℂ) + ∑ j : Fin J, ((Q j * x⁻¹ ^ (j.val + 1)).re : ℂ)) + ((G x).re : ℂ) := by
    intro x hx
    have hmem : x ∈ closedBall (0 : ℂ) |(1 : ℝ)| := by rw [abs_one, mem_closedBall, dist_zero_right, hx]
    have hx0 : x ≠ 0 := by intro hc; rw [hc, norm_zero] at hx; exact zero_ne_one hx
    have hT : T (s.z m + s.r m * x) = s.c0 Tb q m + ∑ j : Fin J, (P m j * x⁻¹ ^ (j.val + 1)).re + (s.reg q P m x).re := by
      have hnorm : ‖(s.r m : ℂ) * x‖ = s.r m := by rw [norm_mul, hx, mul_one, Complex.norm_real, Real.norm_of_nonneg hr.le]
      show s.field Tb q P Tf _ = _
      have hA : ∀ i, s.r i ≤ ‖s.z m + s.r m * x - s.z i‖ := fun i => by
        by_cases hi : m = i
        · subst hi; rw [add_sub_cancel_left, hnorm]
        · have h1 := hf.apart i hi
          have h2 := norm_sub_norm_le (s.z m - s.z i) (-((s.r m : ℂ) * x))
          rw [norm_neg, hnorm, sub_neg_eq_add] at h2
          have e1 : s.z m - s.z i + (s.r m : ℂ) * x = s.z m + (s.r m : ℂ) * x - s.z i := by ring
          rw [e1] at h2
          linarith
      have hB : ‖s.z m + s.r m * x‖ ≤ s.rb := by
        refine (norm_add_le _ _).trans ?_
        rw [hnorm]; exact hf.inside.le
      rw [field_in Tb q P Tf h.r hA hB, hf.inF_local h Tb q P (hf.disc h hmem) hx0, hx, log_one, mul_zero, sub_zero]
    rw [hT]
    have hGre : (G x).re = -(s.reg q P m x).re + s.beta m * (x * deriv (s.reg q P m) x).re := by
      show ((-1 : ℂ) * s.reg q P m x + (s.beta m : ℂ) * (x * deriv (s.reg q P m) x)).re = _
      rw [Complex.add_re, Complex.re_ofReal_mul, neg_one_mul, Complex.neg_re]
    have hQ : ∀ j : Fin J, (Q j * x⁻¹ ^ (j.val + 1)).re = -(P m j * x⁻¹ ^ (j.val + 1)).re + s.beta m * ((-((j.val : ℂ) + 1) * P m j) * x⁻¹ ^ (j.val + 1)).re := fun j => by
      show ((((-(1 + ((j.val : ℝ) + 1) * s.beta m) : ℝ) : ℂ) * P m j) * x⁻¹ ^ (j.val + 1)).re = _
      rw [← Complex.re_ofReal_mul, ← Complex.neg_re, ← Complex.add_re]
      congr 1
      push_cast
      ring
    have hfin : Tf m - (s.c0 Tb q m + ∑ j : Fin J, (P m j * x⁻¹ ^ (j.val + 1)).re + (s.reg q P m x).re) - s.Rfp m * (2 * π * s.r m * (-s.kg * ((-(q m * s.pikg) + ∑ j : Fin J, ((-((j.val : ℂ) + 1) * P m j) * x⁻¹ ^ (j.val + 1)).re
        + (x * deriv (s.reg q P m) x).re) / s.r m))) = C + ∑ j : Fin J, (Q j * x⁻¹ ^ (j.val + 1)).re + (G x).re := by
      rw [hGre, Finset.sum_congr rfl fun j _ => hQ j, Finset.sum_add_distrib, Finset.sum_neg_distrib, ← Finset.mul_sum]
      show _ = (Tf m - s.c0 Tb q m - s.beta m * (q m * s.pikg)) + _ + _
      unfold Sec.beta
      field_simp
      ring
    rw [hfin]
    push_cast
    rfl
  rw [Harmonic_eq, har_congr hpt]
  have c1 : ∀ j ∈ (Finset.univ : Finset (Fin J)), Cc (fun x => ((Q j * x⁻¹ ^ (j.val + 1)).re : ℂ)) := fun j _ => by
    refine Complex.continuous_ofReal.comp_continuousOn (Complex.continuous_re.comp_continuousOn (ContinuousOn.mul continuousOn_const
      (ContinuousOn.pow (ContinuousOn.inv₀ continuousOn_id ?_) _)))
    exact fun x hx => (unit_ne hx).2.1
  have c2 : Cc (fun x => ∑ j : Fin J, ((Q j * x⁻¹ ^ (j.val + 1)).re : ℂ)) := continuousOn_finsetSum _ c1
  have c3 : Cc (fun x => (C : ℂ) + ∑ j : Fin J, ((Q j * x⁻¹ ^ (j.val + 1)).re : ℂ)) := ContinuousOn.add continuousOn_const c2
  have c4 : Cc (fun x => ((G x).re : ℂ)) := Complex.continuous_ofReal.comp_continuousOn (Complex.continuous_re.comp_continuousOn hG.cc)
  have hGh : har G (k.val + 1) = (-1 + s.beta m * (k.val + 1)) * s.F q P m k := by
    have e1 : har G (k.val + 1) = _ := har_add hG1.cc hG2.cc (k.val + 1)
    have e2 := har_deriv (f := s.reg q P m) (f' := deriv (s.reg q P m)) (fun x hx => (hreg x (by rw [abs_one, mem_closedBall, dist_zero_right, hx])).hasDerivAt) hD.cc (k.val + 1)
    rw [e1, har_const_mul, har_const_mul, e2, hf.har_reg h q P k]
    push_cast
    ring
  rw [har_add c3 c4, har_add (Hd.const _).cc c2, har_const, har_sum _ c1, Finset.sum_congr rfl fun j _ => har_sing (Q j) j.val k.val, har_re hG, hGh]
  have e3 : (∑ j : Fin J, if j.val = k.val then conj (Q j) / 2 else 0) = conj (Q k) / 2 := by
    have : ∀ j : Fin J, (if j.val = k.val then conj (Q j) / 2 else 0) = if k = j then conj (Q j) / 2 else 0 := fun j => by
      by_cases hj : k = j
      · rw [if_pos hj, if_pos (by rw [hj])]
      · rw [if_neg hj, if_neg fun hc => hj (Fin.ext hc.symm)]
    rw [Finset.sum_congr rfl fun j _ => this j, Finset.sum_ite_eq, if_pos (Finset.mem_univ k)]
  rw [e3]
  have e4 : conj (Q k) = -(1 + ((k.val : ℂ) + 1) * s.beta m) * conj (P m k) := by
    show conj (((-(1 + ((k.val : ℝ) + 1) * s.beta m) : ℝ) : ℂ) * P m k) = _
    rw [map_mul, Complex.conj_ofReal]
    push_cast
    ring
  have h1c : (1 + ((k.val : ℂ) + 1) * s.beta m) ≠ 0 := by exact_mod_cast h1b
  have e5 : conj (s.next q P m k) = -((1 - ((k.val : ℂ) + 1) * s.beta m) / (1 + ((k.val : ℂ) + 1) * s.beta m)) * s.F q P m k := by
    unfold Sec.next Sec.coeff
    rw [map_mul, Complex.conj_conj, Complex.conj_ofReal]
    push_cast
    rfl
  rw [map_sub, e5, e4]
  push_cast
  field_simp
  ring

/-- **C67** (converged multipoles).  Where one more iteration does not change the multipoles, all the harmonics `1, …, J` of the boundary condition hold. -/
theorem pipe_wall_converged (s : Sec n) (h : s.Geo) (m : Fin n) (hf : s.Free m) (hR : 0 ≤ s.Rfp m) (Tb : ℝ) (q : Fin n → ℝ) (J : ℕ) (eps : ℝ) (itMax : ℕ)
    (hconv : s.next q (s.poles q J eps itMax).P = (s.poles q J eps itMax).P) (k : Fin J) :
    ∃ g, Radial (s.multipole Tb q J eps itMax).2.1 (s.z m) (s.r m) g ∧
      Harmonic (fun e => (s.multipole Tb q J eps itMax).1 m - (s.multipole Tb q J eps itMax).2.1 (s.z m + s.r m * e)
        - s.Rfp m * (2 * π * s.r m * (-s.kg * g e))) (k.val + 1) = 0 := by
  obtain ⟨g, h1, h2⟩ := pipe_wall s h m hf hR Tb q J eps itMax k
  refine ⟨g, h1, h2.trans ?_⟩
  rw [hconv, sub_self, map_zero, mul_zero]

/-- Non-vacuity: the pipes of the sample borehole are free. -/
theorem sampleSec_free (i : Fin 2) : sampleSec.Free i := by
  refine ⟨?_, fun j hij => ?_⟩
  · fin_cases i <;> norm_num [sampleSec]
  · fin_cases i <;> fin_cases j <;> first | exact absurd rfl hij | norm_num [sampleSec]

example : ∃ g, Radial (sampleSec.multipole 5 (fun i => if i = 0 then 10 else 20) 2 (1 / 10 ^ 5) 100).2.1 (sampleSec.z 1) (sampleSec.r 1) g ∧
    2 * π * sampleSec.r 1 * (-sampleSec.kg * circleAverage g 0 1) = 20 := by
  have := pipe_heat sampleSec sampleSec_geo 1 (sampleSec_free 1) 5 (fun i => if i = 0 then 10 else 20) 2 (1 / 10 ^ 5) 100
  simpa using this

/-- Non-vacuity of the converged case: one pipe at the centre. -/
def centreSec : Sec 1 := ⟨fun _ => 0, fun _ => 1 / 50, 3 / 40, 2, 1, fun _ => 1 / 10⟩

theorem centre_next (q : Fin 1 → ℝ) (J : ℕ) : centreSec.next q (fun _ (_ : Fin J) => 0) = fun _ _ => 0 := by
  funext m k
  have hm : ∀ i : Fin 1, m = i := fun i => Subsingleton.elim _ _
  have hz : ∀ i, centreSec.z i = 0 := fun _ => rfl
  have hF : centreSec.F q (fun _ (_ : Fin J) => 0) m k = 0 := by
    unfold Sec.F
    have e1 : ∀ e : ℕ, (0 : ℂ) ^ (e + 1) = 0 := fun e => zero_pow (by omega)
    simp only [if_pos (hm _), hz, map_zero, Finset.sum_const_zero, mul_zero, zero_mul, e1, add_zero]
  unfold Sec.next
  rw [hF, map_zero, mul_zero]

theorem centre_poles (q : Fin 1 → ℝ) (J : ℕ) (eps : ℝ) (itMax : ℕ) : (centreSec.poles q J eps itMax).P = fun _ _ => 0 := by
  have : ∀ k (x : Iter 1 J), (x.P = fun _ _ => 0) → (centreSec.iterate q eps k x).P = fun _ _ => 0 := by
    intro k
    induction k with
    | zero => intro x hx; exact hx
    | succ k ih =>
      intro x hx
      unfold Sec.iterate
      split_ifs
      · refine ih _ ?_
        show centreSec.next q x.P = _
        rw [hx, centre_next]
      · exact hx
  unfold Sec.poles
  split_ifs
  · exact this _ _ rfl
  · rfl

example (q : Fin 1 → ℝ) : centreSec.next q (centreSec.poles q 3 (1 / 10 ^ 5) 100).P = (centreSec.poles q 3 (1 / 10 ^ 5) 100).P := by
  rw [centre_poles, centre_next]

end Verif.Pipe.Pole
