import Verif.Pipe.UTubeHeatProps
import Mathlib.Analysis.SpecialFunctions.Trigonometric.DerivHyp

/-!
# Property C134: the flow rate and the length of a single U-tube

`UTube.effectiveResistance`, `UTube.outletT` and `UTube.fluidHeat` (`UTubeModel.lean`) as functions of the flow rate
and of the length of the borehole.  The delta circuit is fixed, as it is in a `SingleUTube` or a `Coaxial` object: the
resistances are arguments of the constructor.  The theorems about temperatures and heat extraction rates are at a
uniform wall temperature, for any number and any lengths of segments.
-/

noncomputable section

namespace Verif.Pipe

open Real Set

/-! ### The hyperbolic cotangent -/

/-- Specification: `coth x`. -/
def coth (x : ℝ) : ℝ := cosh x / sinh x

theorem coth_pos {x : ℝ} (hx : 0 < x) : 0 < coth x := div_pos (cosh_pos x) (sinh_pos_iff.mpr hx)

theorem coth_lt {x y : ℝ} (hx : 0 < x) (h : x < y) : coth y < coth x := by
  have h1 : 0 < sinh x := sinh_pos_iff.mpr hx
  have h2 : 0 < sinh y := sinh_pos_iff.mpr (hx.trans h)
  unfold coth
  rw [div_lt_div_iff₀ h2 h1]
  have : 0 < sinh (y - x) := sinh_pos_iff.mpr (by linarith)
  rw [sinh_sub] at this
  linarith

theorem sinh_gt {x : ℝ} (hx : 0 < x) : x < sinh x := self_lt_sinh_iff.mpr hx

/-- `x coth x` increases. -/
theorem mul_coth_lt {x y : ℝ} (hx : 0 < x) (h : x < y) : x * coth x < y * coth y := by
  have hder : ∀ z ∈ Ioi (0 : ℝ), HasDerivAt (fun z => z * coth z) ((sinh z * cosh z - z) / sinh z ^ 2) z := by
    intro z hz
    have h1 : sinh z ≠ 0 := (sinh_pos_iff.mpr hz).ne'
    have := (hasDerivAt_id z).mul ((hasDerivAt_cosh z).div (hasDerivAt_sinh z) h1)
    refine HasDerivAt.congr_deriv this ?_
    have := cosh_sq z
    simp only [id, Pi.div_apply]
    field_simp
    linear_combination -z * this
  have hmono : StrictMonoOn (fun z => z * coth z) (Ioi 0) := by
    apply strictMonoOn_of_deriv_pos (convex_Ioi 0)
    · exact fun z hz => (hder z hz).continuousAt.continuousWithinAt
    · intro z hz
      rw [interior_Ioi] at hz
      rw [(hder z hz).deriv]
      have h1 := sinh_gt hz
      have h2 := one_le_cosh z
      have h3 : (0 : ℝ) < z := hz
      have : 0 < sinh z * cosh z - z := by nlinarith
      positivity
  exact hmono hx (hx.trans h) h

theorem one_lt_mul_coth {x : ℝ} (hx : 0 < x) : 1 < x * coth x := by
  have h1 : 0 < sinh x := sinh_pos_iff.mpr hx
  have hmono : StrictMonoOn (fun z => z * cosh z - sinh z) (Ici 0) := by
    have hder : ∀ z : ℝ, HasDerivAt (fun z => z * cosh z - sinh z) (z * sinh z) z := by
      intro z
      refine HasDerivAt.congr_deriv (((hasDerivAt_id z).mul (hasDerivAt_cosh z)).sub (hasDerivAt_sinh z)) ?_
      simp only [id]; ring
    apply strictMonoOn_of_deriv_pos (convex_Ici 0)
    · exact fun z _ => (hder z).continuousAt.continuousWithinAt
    · intro z hz
      rw [interior_Ici] at hz
      rw [(hder z).deriv]
      exact mul_pos hz (sinh_pos_iff.mpr hz)
  have := hmono (a := 0) (b := x) (by simp) (by simpa using hx.le) hx
  simp only [zero_mul, sinh_zero, sub_zero] at this
  unfold coth
  rw [← mul_div_assoc, lt_div_iff₀ h1]
  linarith

/-- `x coth x ≤ 1 + x² / 3`. -/
theorem mul_coth_le {x : ℝ} (hx : 0 < x) : x * coth x ≤ 1 + x ^ 2 / 3 := by
  have h1 : 0 < sinh x := sinh_pos_iff.mpr hx
  have hmono : MonotoneOn (fun z => (1 + z ^ 2 / 3) * sinh z - z * cosh z) (Ici 0) := by
    have hder : ∀ z : ℝ, HasDerivAt (fun z => (1 + z ^ 2 / 3) * sinh z - z * cosh z) (z / 3 * (z * cosh z - sinh z)) z := by
      intro z
      have hq : HasDerivAt (fun z : ℝ => 1 + z ^ 2 / 3) (2 * z / 3) z := by
        refine HasDerivAt.congr_deriv (((hasDerivAt_pow 2 z).div_const 3).const_add 1) ?_
        push_cast; ring
      refine HasDerivAt.congr_deriv ((hq.mul (hasDerivAt_sinh z)).sub ((hasDerivAt_id z).mul (hasDerivAt_cosh z))) ?_
      simp only [id]; ring
    apply monotoneOn_of_deriv_nonneg (convex_Ici 0)
    · exact fun z _ => (hder z).continuousAt.continuousWithinAt
    · exact fun z _ => (hder z).differentiableAt.differentiableWithinAt
    · intro z hz
      rw [interior_Ici] at hz
      rw [(hder z).deriv]
      have h2 := one_lt_mul_coth hz
      have h3 : 0 < sinh z := sinh_pos_iff.mpr hz
      unfold coth at h2
      rw [← mul_div_assoc, lt_div_iff₀ h3] at h2
      have h4 : (0 : ℝ) < z := hz
      have h5 : 0 ≤ z * cosh z - sinh z := by linarith
      positivity
  have := hmono (a := 0) (b := x) (by simp) (by simpa using hx.le) hx.le
  simp only [zero_mul, sinh_zero, mul_zero, sub_zero] at this
  unfold coth
  rw [← mul_div_assoc, div_le_iff₀ h1]
  linarith

theorem coth_exp {x : ℝ} (hx : 0 < x) : coth x = (1 + exp (-2 * x)) / (1 - exp (-2 * x)) := by
  have h1 : 0 < sinh x := sinh_pos_iff.mpr hx
  have h2 : exp (-2 * x) < 1 := by rw [exp_lt_one_iff]; linarith
  have h3 : 1 - exp (-2 * x) ≠ 0 := by linarith
  unfold coth
  rw [div_eq_div_iff h1.ne' h3, cosh_eq, sinh_eq]
  have h4 : exp (-2 * x) = exp (-x) * exp (-x) := by rw [← exp_add]; congr 1; ring
  have h5 : exp x * exp (-x) = 1 := by rw [← exp_add]; simp
  rw [h4]
  linear_combination (-exp (-x)) * h5

namespace UTube

/-- Specification: the conductance per unit length `sqrt(((G1 + G2) / 2)² + G12 (G1 + G2))` of the delta circuit. -/
def circuit (t : UTube) : ℝ := √(1 / 4 * (t.G 0 0 + t.G 1 1) ^ 2 + t.G 0 1 * (t.G 0 0 + t.G 1 1))

/-- Specification: the number of transfer units of the borehole at a heat capacity rate `|m| cp`. -/
def eta (t : UTube) (m cp : ℝ) : ℝ := t.circuit * t.H / (|m| * cp)

variable {t : UTube} (hv : t.Valid)

include hv in
theorem circuit_pos : 0 < t.circuit := by
  apply sqrt_pos.mpr
  nlinarith [hv.det, sq_nonneg (t.G 0 0 - t.G 1 1)]

include hv in
theorem eta_pos {m cp : ℝ} (hm : m ≠ 0) (hc : 0 < cp) : 0 < t.eta m cp :=
  div_pos (mul_pos (circuit_pos hv) hv.H) (mul_pos (abs_pos.mpr hm) hc)

include hv in
theorem gamma_circuit {m cp : ℝ} (hm : m ≠ 0) (hc : 0 < cp) : (t.par m cp).gamma = t.circuit / (|m| * cp) := by
  have hM : 0 < |m| * cp := mul_pos (abs_pos.mpr hm) hc
  unfold UPar.gamma circuit
  rw [← Real.sqrt_sq hM.le, ← Real.sqrt_div' _ (sq_nonneg _)]
  congr 1
  unfold par iInlet iOutlet
  cases t.isReversed m
  · simp only [Bool.false_eq_true, if_false]
    field_simp
  · simp only [if_true, ← hv.symm]
    field_simp
    ring

include hv in
theorem localResistance_pos : 0 < t.localResistance := by
  have := hv.sum
  unfold localResistance; positivity

include hv in
/-- **C134** (closed form).  The effective borehole thermal resistance of a single U-tube or coaxial borehole is the local
one multiplied by `η coth η`. -/
theorem effective_eta {m cp : ℝ} (hm : m ≠ 0) (hc : 0 < cp) (h : 0 < m ∨ t.reversible = true) :
    t.effectiveResistance m cp = t.localResistance * (t.eta m cp * coth (t.eta m cp)) := by
  have hp := par_passive hv hm hc
  have hG := hv.sum
  have hM : 0 < |m| * cp := mul_pos (abs_pos.mpr hm) hc
  have hm' : 0 < |m| := abs_pos.mpr hm
  have hη := eta_pos hv hm hc
  have hγ := gamma_circuit hv hm hc
  have hsum : (t.par m cp).b1 + (t.par m cp).b2 = (t.G 0 0 + t.G 1 1) / (|m| * cp) := by
    unfold par iInlet iOutlet
    cases t.isReversed m
    · simp only [Bool.false_eq_true, if_false]; ring
    · simp only [if_true]; ring
  have hA := outA_lt hv hm hc
  have hκ := circuit_pos hv
  unfold effectiveResistance
  rw [heatA_single hv hm hc, sgn_eq_abs (h.imp_left le_of_lt), coth_exp hη]
  obtain ⟨p, hpd⟩ : ∃ p, p = t.par m cp := ⟨_, rfl⟩
  rw [← hpd] at hp hA hγ hsum ⊢
  have hH : p.H = t.H := by rw [hpd]; rfl
  have he : exp (-2 * t.eta m cp) = p.e := by
    unfold UPar.e eta; rw [hγ, hH]; congr 1; ring
  rw [he]
  have hs := UPar.s_pos hp
  have hden := UPar.den_pos hp
  have hoA : p.outA = (p.A + p.B * p.e) / (p.B + p.A * p.e) := rfl
  have h1A : 0 < 1 - p.outA := by linarith
  have e1 : 1 + p.outA = 2 * (1 + p.e) / (p.B + p.A * p.e) := by
    rw [hoA, UPar.A_eq, UPar.B_eq] at *
    field_simp
    ring
  have e2 : 1 - p.outA = 2 * p.s * (1 - p.e) / (p.B + p.A * p.e) := by
    rw [hoA, UPar.A_eq, UPar.B_eq] at *
    field_simp
    ring
  have he1 : 0 < 1 - p.e := by
    rw [e2] at h1A
    have := (div_pos_iff_of_pos_right hden).mp h1A
    by_contra hcon
    nlinarith
  have hsv : p.s = 1 / 2 * (t.G 0 0 + t.G 1 1) / t.circuit := by
    unfold UPar.s; rw [hsum, hγ]; field_simp
  rw [show -(1 / 2) * t.H * (1 + p.outA) / (|m| * cp * (p.outA - 1))
      = t.H * (1 + p.outA) / (2 * (|m| * cp) * (1 - p.outA)) by
    rw [div_eq_div_iff (mul_ne_zero hM.ne' (by linarith)) (by positivity)]
    ring, e1, e2, hsv]
  unfold localResistance eta
  have hd2 : p.B + p.A * p.e ≠ 0 := hden.ne'
  obtain ⟨D, hD⟩ : ∃ D, D = p.B + p.A * p.e := ⟨_, rfl⟩
  rw [← hD] at hd2 ⊢
  field_simp

include hv in
/-- **C134** (bounds).  The effective borehole thermal resistance is above the local one, and by at most the fraction
`η² / 3` of it: it tends to the local one as the flow rate increases. -/
theorem effective_bounds {m cp : ℝ} (hm : m ≠ 0) (hc : 0 < cp) (h : 0 < m ∨ t.reversible = true) :
    t.localResistance < t.effectiveResistance m cp ∧
    t.effectiveResistance m cp ≤ t.localResistance * (1 + t.eta m cp ^ 2 / 3) := by
  have hη := eta_pos hv hm hc
  have hl := localResistance_pos hv
  rw [effective_eta hv hm hc h]
  exact ⟨lt_mul_of_one_lt_right hl (one_lt_mul_coth hη), mul_le_mul_of_nonneg_left (mul_coth_le hη) hl.le⟩

theorem ratio_lt {Tin Tw d d' : ℝ} (hT : Tin ≠ Tw) (hd : 0 < d') (h : d' < d) :
    0 < (Tw - Tin) / d * (Tw - Tin) ∧ |(Tw - Tin) / d| < |(Tw - Tin) / d'| := by
  have h1 : Tw - Tin ≠ 0 := sub_ne_zero.mpr hT.symm
  have h2 : 0 < |Tw - Tin| := abs_pos.mpr h1
  have h3 : 0 < d := hd.trans h
  have h4 : 0 < (Tw - Tin) ^ 2 := by positivity
  refine ⟨by rw [div_mul_eq_mul_div, ← sq]; positivity, ?_⟩
  rw [abs_div, abs_div, abs_of_pos hd, abs_of_pos h3]
  exact div_lt_div_of_pos_left h2 hd h

/-- Two heat capacity rates, in either direction if the object reverses the flow. -/
structure Faster (t : UTube) (m cp m' cp' : ℝ) : Prop where
  flow : m ≠ 0
  flow' : m' ≠ 0
  heat : 0 < cp
  heat' : 0 < cp'
  dir : 0 < m ∨ t.reversible = true
  dir' : 0 < m' ∨ t.reversible = true
  lt : |m| * cp < |m'| * cp'

include hv in
theorem eta_lt {m cp m' cp' : ℝ} (hf : t.Faster m cp m' cp') : t.eta m' cp' < t.eta m cp := by
  have h1 : 0 < |m| * cp := mul_pos (abs_pos.mpr hf.flow) hf.heat
  exact div_lt_div_of_pos_left (mul_pos (circuit_pos hv) hv.H) h1 hf.lt

include hv in
/-- **C134** (resistance).  The effective borehole thermal resistance decreases with the flow rate. -/
theorem effective_flow {m cp m' cp' : ℝ} (hf : t.Faster m cp m' cp') :
    t.effectiveResistance m' cp' < t.effectiveResistance m cp := by
  rw [effective_eta hv hf.flow hf.heat hf.dir, effective_eta hv hf.flow' hf.heat' hf.dir']
  exact mul_lt_mul_of_pos_left (mul_coth_lt (eta_pos hv hf.flow' hf.heat') (eta_lt hv hf)) (localResistance_pos hv)

include hv in
/-- At a uniform wall temperature: inlet to wall temperature difference from the resistance and the heat capacity
rate. -/
theorem heat_from_resistance {m cp : ℝ} (hm : m ≠ 0) (hc : 0 < cp) (h : 0 < m ∨ t.reversible = true) {zu : ℕ → ℝ} {n : ℕ}
    (hz : Edges zu n t.H) (Tin Tw : ℝ) :
    t.fluidHeat zu n m cp Tin (fun _ => Tw) * (t.effectiveResistance m cp / t.H + 1 / (2 * (|m| * cp))) = Tw - Tin := by
  have h1 := effective_resistance hv hm hc hz h Tin Tw
  have hM : 0 < |m| * cp := mul_pos (abs_pos.mpr hm) hc
  have hm' : 0 < |m| := abs_pos.mpr hm
  have h2 : t.outletT zu n m cp Tin (fun _ => Tw) = Tin + t.fluidHeat zu n m cp Tin (fun _ => Tw) / (|m| * cp) := by
    rw [fluidHeat_eq]; field_simp; ring
  rw [h2] at h1
  have hH := hv.H
  field_simp at h1 ⊢
  linear_combination -h1

include hv in
/-- **C134** (heat).  At a uniform wall temperature, heat flows from the warmer to the colder of the wall and the inlet,
and its rate increases with the flow rate. -/
theorem heat_flow {m cp m' cp' : ℝ} (hf : t.Faster m cp m' cp') {zu zu' : ℕ → ℝ} {n n' : ℕ} (hz : Edges zu n t.H)
    (hz' : Edges zu' n' t.H) {Tin Tw : ℝ} (hT : Tin ≠ Tw) :
    0 < t.fluidHeat zu n m cp Tin (fun _ => Tw) * (Tw - Tin) ∧
    |t.fluidHeat zu n m cp Tin (fun _ => Tw)| < |t.fluidHeat zu' n' m' cp' Tin (fun _ => Tw)| := by
  have h1 := heat_from_resistance hv hf.flow hf.heat hf.dir hz Tin Tw
  have h2 := heat_from_resistance hv hf.flow' hf.heat' hf.dir' hz' Tin Tw
  have hM : 0 < |m| * cp := mul_pos (abs_pos.mpr hf.flow) hf.heat
  have hM' : 0 < |m'| * cp' := mul_pos (abs_pos.mpr hf.flow') hf.heat'
  have hR := effective_flow hv hf
  have hR' : 0 < t.effectiveResistance m' cp' :=
    (localResistance_pos hv).trans (effective_bounds hv hf.flow' hf.heat' hf.dir').1
  have hH := hv.H
  have k1 : t.effectiveResistance m' cp' / t.H < t.effectiveResistance m cp / t.H := div_lt_div_of_pos_right hR hH
  have k2 : 1 / (2 * (|m'| * cp')) < 1 / (2 * (|m| * cp)) :=
    one_div_lt_one_div_of_lt (by positivity) (by linarith [hf.lt])
  have k3 : 0 < t.effectiveResistance m' cp' / t.H + 1 / (2 * (|m'| * cp')) := by positivity
  rw [← eq_div_iff (by linarith)] at h1
  rw [← eq_div_iff k3.ne'] at h2
  rw [h1, h2]
  exact ratio_lt hT k3 (by linarith)

include hv in
theorem outlet_from_coth {m cp : ℝ} (hm : m ≠ 0) (hc : 0 < cp) (h : 0 < m ∨ t.reversible = true) {zu : ℕ → ℝ} {n : ℕ}
    (hz : Edges zu n t.H) (Tin Tw : ℝ) :
    (t.outletT zu n m cp Tin (fun _ => Tw) - Tin)
      * (t.localResistance * t.circuit * coth (t.eta m cp) + 1 / 2) = Tw - Tin := by
  have h1 := heat_from_resistance hv hm hc h hz Tin Tw
  have hM : 0 < |m| * cp := mul_pos (abs_pos.mpr hm) hc
  have hm' : 0 < |m| := abs_pos.mpr hm
  rw [fluidHeat_eq, effective_eta hv hm hc h] at h1
  rw [← h1]
  have hH := hv.H
  have hη : t.eta m cp = t.circuit * t.H / (|m| * cp) := rfl
  obtain ⟨c, hcc⟩ : ∃ c, c = coth (t.eta m cp) := ⟨_, rfl⟩
  rw [← hcc, hη]
  field_simp

/-- The same borehole with another length. -/
def withLength (t : UTube) (H : ℝ) : UTube := { t with H := H }

include hv in
theorem withLength_valid {H : ℝ} (hH : 0 < H) : (t.withLength H).Valid := ⟨hH, hv.nonneg, hv.sum, hv.symm, hv.det⟩

theorem eta_length (H m cp : ℝ) : (t.withLength H).eta m cp = t.circuit * H / (|m| * cp) := rfl

include hv in
/-- **C134** (outlet).  At a uniform wall temperature, the fluid temperature moves towards the wall temperature, by less as
the flow rate increases. -/
theorem outlet_flow {m cp m' cp' : ℝ} (hf : t.Faster m cp m' cp') {zu zu' : ℕ → ℝ} {n n' : ℕ} (hz : Edges zu n t.H)
    (hz' : Edges zu' n' t.H) {Tin Tw : ℝ} (hT : Tin ≠ Tw) :
    0 < (t.outletT zu' n' m' cp' Tin (fun _ => Tw) - Tin) * (Tw - Tin) ∧
    |t.outletT zu' n' m' cp' Tin (fun _ => Tw) - Tin| < |t.outletT zu n m cp Tin (fun _ => Tw) - Tin| := by
  have h1 := outlet_from_coth hv hf.flow hf.heat hf.dir hz Tin Tw
  have h2 := outlet_from_coth hv hf.flow' hf.heat' hf.dir' hz' Tin Tw
  have hη := eta_lt hv hf
  have hp := eta_pos hv hf.flow' hf.heat'
  have hk := mul_pos (localResistance_pos hv) (circuit_pos hv)
  have c1 := mul_lt_mul_of_pos_left (coth_lt hp hη) hk
  have c2 := mul_pos hk (coth_pos (hp.trans hη))
  rw [← eq_div_iff (by linarith)] at h1 h2
  rw [h1, h2]
  exact ratio_lt hT (by linarith) (by linarith)

include hv in
/-- **C134** (length).  At the same flow rate, a longer borehole has a higher effective resistance, and at the same uniform
wall temperature, a larger change of the fluid temperature and a larger heat transfer rate. -/
theorem length_flow {H' m cp : ℝ} (hH : t.H < H') (hm : m ≠ 0) (hc : 0 < cp) (h : 0 < m ∨ t.reversible = true) {zu zu' : ℕ → ℝ}
    {n n' : ℕ} (hz : Edges zu n t.H) (hz' : Edges zu' n' H') {Tin Tw : ℝ} (hT : Tin ≠ Tw) :
    t.effectiveResistance m cp < (t.withLength H').effectiveResistance m cp ∧
    |t.outletT zu n m cp Tin (fun _ => Tw) - Tin| < |(t.withLength H').outletT zu' n' m cp Tin (fun _ => Tw) - Tin| ∧
    |t.fluidHeat zu n m cp Tin (fun _ => Tw)| < |(t.withLength H').fluidHeat zu' n' m cp Tin (fun _ => Tw)| := by
  have hv' := withLength_valid hv (hv.H.trans hH)
  have hM : 0 < |m| * cp := mul_pos (abs_pos.mpr hm) hc
  have hp := eta_pos hv hm hc
  have hη : t.eta m cp < (t.withLength H').eta m cp := by
    rw [eta_length]
    exact div_lt_div_of_pos_right (mul_lt_mul_of_pos_left hH (circuit_pos hv)) hM
  have h1 := outlet_from_coth hv hm hc h hz Tin Tw
  have h2 := outlet_from_coth hv' hm hc h hz' Tin Tw
  have hk := mul_pos (localResistance_pos hv) (circuit_pos hv)
  have c1 := mul_lt_mul_of_pos_left (coth_lt hp hη) hk
  have c2 := mul_pos hk (coth_pos (hp.trans hη))
  rw [show (t.withLength H').localResistance = t.localResistance from rfl,
    show (t.withLength H').circuit = t.circuit from rfl] at h2
  rw [← eq_div_iff (by linarith)] at h1 h2
  have k := (ratio_lt hT (d' := t.localResistance * t.circuit * coth ((t.withLength H').eta m cp) + 1 / 2)
    (d := t.localResistance * t.circuit * coth (t.eta m cp) + 1 / 2) (by linarith) (by linarith)).2
  rw [← h1, ← h2] at k
  refine ⟨?_, k, ?_⟩
  · rw [effective_eta hv hm hc h, effective_eta hv' hm hc h]
    exact mul_lt_mul_of_pos_left (mul_coth_lt hp hη) (localResistance_pos hv)
  · rw [fluidHeat_eq, fluidHeat_eq, abs_mul (|m| * cp), abs_mul (|m| * cp)]
    exact mul_lt_mul_of_pos_left k (abs_pos.mpr hM.ne')

/-- Non-vacuity: 0.2 and 0.4 kg/s, forwards and backwards. -/
example : (sample true).Faster (1 / 5) 4000 (-2 / 5) 4000 :=
  ⟨by norm_num, by norm_num, by norm_num, by norm_num, by norm_num, Or.inr rfl, by norm_num [abs_of_pos, abs_of_neg]⟩

example (r : Bool) : (sample r).Faster (1 / 5) 4000 (2 / 5) 4000 :=
  ⟨by norm_num, by norm_num, by norm_num, by norm_num, Or.inl (by norm_num), Or.inl (by norm_num), by norm_num [abs_of_pos]⟩

/-- Two segments of the sample, one segment of a borehole of 120 m. -/
example : Edges (fun k => 50 * (k : ℝ)) 2 (sample true).H ∧ Edges (fun k => if k = 0 then 0 else 120) 1 120 ∧ (sample true).H < 120 :=
  ⟨⟨by norm_num, by norm_num, by norm_num [sample, singleUTube], fun i j hij _ => by
    have : (i : ℝ) ≤ j := by exact_mod_cast hij
    linarith⟩, ⟨by norm_num, by simp, by simp, fun i j hij _ => by
      split_ifs <;> first | omega | norm_num⟩, by norm_num [sample, singleUTube]⟩

end UTube

end Verif.Pipe
