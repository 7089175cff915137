import Verif.Pipe.UTubeProps
import Verif.Net.FlowProps

/-!
# Properties C40, C41, C60: heat balance and effective resistance of a single U-tube

The parameters come from delta-circuit resistances and a flow rate; `UTube.Valid` collects what a physical
single U-tube or coaxial borehole satisfies.  The pipe to pipe resistance may be negative, as it is for some
geometries.
-/

noncomputable section

namespace Verif.Pipe

open Real Set

namespace UTube

/-- Physical borehole: positive length, non-negative pipe to wall conductances that are not both zero, symmetric
delta circuit, and a pipe to pipe conductance that keeps the circuit passive. -/
structure Valid (t : UTube) : Prop where
  H : 0 < t.H
  nonneg : ∀ i, 0 ≤ t.G i i
  sum : 0 < t.G 0 0 + t.G 1 1
  symm : t.G 0 1 = t.G 1 0
  det : 0 < t.G 0 0 * t.G 1 1 + t.G 0 1 * (t.G 0 0 + t.G 1 1)

/-- Every single U-tube with positive, symmetric resistances is valid. -/
theorem singleUTube_valid {Rd : Fin 2 → Fin 2 → ℝ} {H : ℝ} (r : Bool) (hH : 0 < H) (h : ∀ i j, 0 < Rd i j)
    (hs : Rd 0 1 = Rd 1 0) : (singleUTube Rd H r).Valid := by
  have h00 := h 0 0
  have h11 := h 1 1
  have h01 := h 0 1
  exact ⟨hH, fun i => by have := h i i; unfold singleUTube; positivity, by unfold singleUTube; positivity,
    by unfold singleUTube; dsimp only; rw [hs], by unfold singleUTube; positivity⟩

/-- Every coaxial borehole with positive resistances is valid. -/
theorem coaxial_valid (i : Fin 2) {Rff Rfg H : ℝ} (r : Bool) (hH : 0 < H) (h1 : 0 < Rff) (h2 : 0 < Rfg) :
    (coaxial i Rff Rfg H r).Valid := by
  have e1 : 0 < 1 / Rff := by positivity
  have e2 : 0 < 1 / Rfg := by positivity
  fin_cases i
  · refine ⟨hH, fun j => ?_, ?_, ?_, ?_⟩
    · fin_cases j <;> simp [coaxial, h2.le]
    all_goals simp [coaxial] <;> positivity
  · refine ⟨hH, fun j => ?_, ?_, ?_, ?_⟩
    · fin_cases j <;> simp [coaxial, h2.le]
    all_goals simp [coaxial] <;> positivity

/-- Non-vacuity. -/
def sample (r : Bool) : UTube := singleUTube (fun i j => if i = j then 1 / 5 else 1 / 2) 100 r

theorem sample_valid (r : Bool) : (sample r).Valid :=
  singleUTube_valid r (by norm_num) (fun i j => by split_ifs <;> norm_num) (by norm_num)

/-- A negative pipe to pipe resistance is also possible. -/
example : (singleUTube (fun i j => if i = j then 1 / 5 else -10) 100 true).Valid :=
  ⟨by norm_num [singleUTube], fun i => by simp [singleUTube], by norm_num [singleUTube], by norm_num [singleUTube],
    by norm_num [singleUTube]⟩

/-- Edges for non-vacuity: two segments. -/
example : Edges (fun k => 50 * (k : ℝ)) 2 (sample true).H :=
  ⟨by norm_num, by norm_num, by norm_num [sample, singleUTube], fun i j hij _ => by
    have : (i : ℝ) ≤ j := by exact_mod_cast hij
    linarith⟩

variable {t : UTube} (hv : t.Valid) {m cp : ℝ} (hm : m ≠ 0) (hc : 0 < cp) {zu : ℕ → ℝ} {n : ℕ} (hz : Edges zu n t.H)

include hv hm hc in
theorem par_passive : (t.par m cp).Passive := by
  have hM : 0 < |m| * cp := mul_pos (abs_pos.mpr hm) hc
  have key : ∀ a b c : ℝ, 0 < a + b → 0 < a * b + c * (a + b) →
      0 < a / (|m| * cp) + b / (|m| * cp) ∧
      0 < a / (|m| * cp) * (b / (|m| * cp)) + c / (|m| * cp) * (a / (|m| * cp) + b / (|m| * cp)) := by
    intro a b c hs hd
    refine ⟨by rw [← add_div]; positivity, ?_⟩
    have e : a / (|m| * cp) * (b / (|m| * cp)) + c / (|m| * cp) * (a / (|m| * cp) + b / (|m| * cp))
        = (a * b + c * (a + b)) * (1 / (|m| * cp)) ^ 2 := by ring
    rw [e]
    positivity
  unfold par iInlet iOutlet
  cases hr : t.isReversed m
  · obtain ⟨k1, k2⟩ := key _ _ _ hv.sum hv.det
    exact ⟨hv.H.le, by simpa using k1, by simpa using k2⟩
  · have hd := hv.det
    have hs := hv.sum
    rw [hv.symm] at hd
    obtain ⟨k1, k2⟩ := key (t.G 1 1) (t.G 0 0) (t.G 1 0) (by linarith) (by linarith)
    exact ⟨hv.H.le, by simpa using k1, by simpa using k2⟩

theorem temperature_eq (m cp : ℝ) (zu : ℕ → ℝ) (n : ℕ) (Tin : ℝ) (Tb : ℕ → ℝ) (z : ℝ) (i : Fin 2) :
    t.temperature zu n m cp Tin Tb z i
      = if i = t.iInlet m then (t.par m cp).downT zu n Tin Tb z else (t.par m cp).upT zu n Tin Tb z := by
  unfold temperature tempA tempB UPar.downT UPar.upT
  split_ifs <;> rfl

theorem segmentHeat_eq (m cp : ℝ) (zu : ℕ → ℝ) (n : ℕ) (Tin : ℝ) (Tb : ℕ → ℝ) (v : ℕ) :
    t.segmentHeat zu n m cp Tin Tb v = ∑ i, mFlowPipe m i * cp *
      (t.temperature zu n m cp Tin Tb (zu (v + 1)) i - t.temperature zu n m cp Tin Tb (zu v) i) := by
  unfold segmentHeat heatA heatB temperature
  simp only [Fin.sum_univ_two]
  have : ∀ i, ∑ u ∈ Finset.range n, mFlowPipe m i * cp *
        (t.tempB zu m cp (zu (v + 1)) i u - t.tempB zu m cp (zu v) i u) * Tb u
      = mFlowPipe m i * cp * (∑ u ∈ Finset.range n, t.tempB zu m cp (zu (v + 1)) i u * Tb u
        - ∑ u ∈ Finset.range n, t.tempB zu m cp (zu v) i u * Tb u) := by
    intro i
    rw [← Finset.sum_sub_distrib, Finset.mul_sum]
    exact Finset.sum_congr rfl fun u _ => by ring
  rw [show ∑ u ∈ Finset.range n, (mFlowPipe m 0 * cp * (t.tempB zu m cp (zu (v + 1)) 0 u - t.tempB zu m cp (zu v) 0 u)
      + mFlowPipe m 1 * cp * (t.tempB zu m cp (zu (v + 1)) 1 u - t.tempB zu m cp (zu v) 1 u)) * Tb u
      = (∑ u ∈ Finset.range n, mFlowPipe m 0 * cp *
        (t.tempB zu m cp (zu (v + 1)) 0 u - t.tempB zu m cp (zu v) 0 u) * Tb u)
        + ∑ u ∈ Finset.range n, mFlowPipe m 1 * cp *
        (t.tempB zu m cp (zu (v + 1)) 1 u - t.tempB zu m cp (zu v) 1 u) * Tb u by
    rw [← Finset.sum_add_distrib]; exact Finset.sum_congr rfl fun u _ => by ring]
  rw [this, this]
  ring

/-- The fluid heat extraction rate is the heat gained between inlet and outlet. -/
theorem fluidHeat_eq (m cp : ℝ) (zu : ℕ → ℝ) (n : ℕ) (Tin : ℝ) (Tb : ℕ → ℝ) :
    t.fluidHeat zu n m cp Tin Tb = |m| * cp * (t.outletT zu n m cp Tin Tb - Tin) := by
  unfold fluidHeat outletT UPar.outletT
  rw [show ∑ u ∈ Finset.range n, |m| * cp * (t.par m cp).outB zu u * Tb u
    = |m| * cp * ∑ u ∈ Finset.range n, (t.par m cp).outB zu u * Tb u by
      rw [Finset.mul_sum]; exact Finset.sum_congr rfl fun u _ => by ring]
  ring

theorem iInlet_ne (m : ℝ) : t.iOutlet m ≠ t.iInlet m := by
  unfold iInlet iOutlet; cases t.isReversed m <;> simp

/-- Sign of the flow counted along the modelled direction. -/
def sgn (t : UTube) (m : ℝ) : ℝ := if t.isReversed m then -m else m

/-- Segment heat in terms of the downward and upward profiles. -/
theorem segmentHeat_profiles (m cp : ℝ) (zu : ℕ → ℝ) (n : ℕ) (Tin : ℝ) (Tb : ℕ → ℝ) (v : ℕ) :
    t.segmentHeat zu n m cp Tin Tb v = t.sgn m * cp *
      (((t.par m cp).downT zu n Tin Tb (zu (v + 1)) - (t.par m cp).downT zu n Tin Tb (zu v))
        - ((t.par m cp).upT zu n Tin Tb (zu (v + 1)) - (t.par m cp).upT zu n Tin Tb (zu v))) := by
  rw [segmentHeat_eq, Fin.sum_univ_two]
  simp only [temperature_eq]
  unfold mFlowPipe sgn iInlet
  cases t.isReversed m
  · simp; ring
  · simp; ring

theorem sgn_eq_abs (h : 0 ≤ m ∨ t.reversible = true) : t.sgn m = |m| := by
  unfold sgn isReversed
  rcases lt_or_ge m 0 with h0 | h0
  · rcases h with h | h
    · linarith
    · simp [h0, h, abs_of_neg h0]
  · simp [not_lt.mpr h0, abs_of_nonneg h0]

theorem sgn_neg (h : m < 0) (hr : t.reversible = false) : t.sgn m = -|m| := by
  unfold sgn isReversed
  simp [hr, abs_of_neg h]

include hv hm hc hz in
theorem segments_total (Tin : ℝ) (Tb : ℕ → ℝ) :
    ∑ v ∈ Finset.range n, t.segmentHeat zu n m cp Tin Tb v
      = t.sgn m * cp * (t.outletT zu n m cp Tin Tb - Tin) := by
  have hz' : Edges zu n (t.par m cp).H := hz
  obtain ⟨sol, hout⟩ := UPar.profile_solves (par_passive hv hm hc) hz' Tin Tb
  simp only [segmentHeat_profiles]
  rw [← Finset.mul_sum, Finset.sum_sub_distrib, Finset.sum_range_sub (fun v => (t.par m cp).downT zu n Tin Tb (zu v)),
    Finset.sum_range_sub (fun v => (t.par m cp).upT zu n Tin Tb (zu v))]
  have hb := sol.bottom
  have hH : zu n = (t.par m cp).H := hz.last
  rw [hz.zero, hH, hb, sol.inlet, hout]
  unfold outletT
  ring

include hv hm hc hz in
/-- **C40.**  The heat extracted by the segments of the borehole sums to the heat gained by the fluid, for
forward flow and, if the flow is reversible, for backward flow. -/
theorem energy_balance (h : 0 < m ∨ t.reversible = true) (Tin : ℝ) (Tb : ℕ → ℝ) :
    ∑ v ∈ Finset.range n, t.segmentHeat zu n m cp Tin Tb v = t.fluidHeat zu n m cp Tin Tb ∧
    t.fluidHeat zu n m cp Tin Tb = |m| * cp * (t.outletT zu n m cp Tin Tb - Tin) := by
  refine ⟨?_, fluidHeat_eq m cp zu n Tin Tb⟩
  rw [segments_total hv hm hc hz, sgn_eq_abs (h.imp_left le_of_lt), fluidHeat_eq]

example (Tin : ℝ) (Tb : ℕ → ℝ) :
    ∑ v ∈ Finset.range 2, (sample true).segmentHeat (fun k => 50 * (k : ℝ)) 2 (-1) 4 Tin Tb v
      = (sample true).fluidHeat (fun k => 50 * (k : ℝ)) 2 (-1) 4 Tin Tb :=
  (energy_balance (sample_valid true) (by norm_num) (by norm_num)
    ⟨by norm_num, by norm_num, by norm_num [sample, singleUTube], fun i j hij _ => by
      have : (i : ℝ) ≤ j := by exact_mod_cast hij
      linarith⟩ (Or.inr rfl) Tin Tb).1

/-- Heat flow from the wall to the fluid in pipe `i` per unit length, from the delta circuit (the flow between
the pipes does not reach the wall). -/
def wallFlux (t : UTube) (T : Fin 2 → ℝ) (Tw : ℝ) : ℝ := ∑ i, (Tw - T i) * t.G i i

include hv hm hc hz in
/-- **C40** (segments).  The heat extracted by a segment is the heat that flows through its wall according
to the delta circuit and the fluid temperatures along it. -/
theorem segment_heat_integral (h : 0 < m ∨ t.reversible = true) (Tin : ℝ) (Tb : ℕ → ℝ) (v : ℕ) (hvn : v < n) :
    t.segmentHeat zu n m cp Tin Tb v
      = ∫ z in (zu v)..(zu (v + 1)), t.wallFlux (fun i => t.temperature zu n m cp Tin Tb z i) (Tb v) := by
  have hz' : Edges zu n (t.par m cp).H := hz
  have hp := par_passive hv hm hc
  obtain ⟨sol, -⟩ := UPar.profile_solves hp hz' Tin Tb
  obtain ⟨cD, cU⟩ := UPar.profile_continuous hp zu n Tin Tb
  have hle : zu v ≤ zu (v + 1) := hz.mono v (v + 1) (by omega) (by omega)
  obtain ⟨D, hD⟩ : ∃ D, D = (t.par m cp).downT zu n Tin Tb := ⟨_, rfl⟩
  obtain ⟨U, hU⟩ : ∃ U, U = (t.par m cp).upT zu n Tin Tb := ⟨_, rfl⟩
  have hflux : ∀ z, t.wallFlux (fun i => t.temperature zu n m cp Tin Tb z i) (Tb v)
      = |m| * cp * ((t.par m cp).b1 * (Tb v - D z) + (t.par m cp).b2 * (Tb v - U z)) := by
    intro z
    have hM : |m| ≠ 0 := abs_ne_zero.mpr hm
    have hc' := hc.ne'
    unfold wallFlux
    simp only [Fin.sum_univ_two, temperature_eq]
    rw [← hD, ← hU]
    unfold par iInlet iOutlet
    cases t.isReversed m
    · simp only [Bool.false_eq_true, if_false, if_true, one_ne_zero]
      field_simp
    · simp only [if_true, zero_ne_one, if_false]
      field_simp
      ring
  rw [segmentHeat_profiles, sgn_eq_abs (h.imp_left le_of_lt)]
  simp only [hflux]
  rw [← hD, ← hU] at sol ⊢
  rw [← hD] at cD
  rw [← hU] at cU
  have hder : ∀ z ∈ Ioo (zu v) (zu (v + 1)), HasDerivAt (fun z => |m| * cp * (D z - U z))
      (|m| * cp * ((t.par m cp).b1 * (Tb v - D z) + (t.par m cp).b2 * (Tb v - U z))) z := by
    intro z hzv
    have := ((sol.down v hvn z hzv).sub (sol.up v hvn z hzv)).const_mul (|m| * cp)
    refine HasDerivAt.congr_deriv this ?_
    ring
  have hint := intervalIntegral.integral_eq_sub_of_hasDerivAt_of_le hle
    (f := fun z => |m| * cp * (D z - U z)) (by fun_prop) hder
    (Continuous.intervalIntegrable (by fun_prop) _ _)
  rw [hint]
  ring

/-! ### C41 -/

include hv hm hc hz in
/-- **C41** is false: a borehole declared irreversible reports, for a negative flow rate, segment
heat extraction rates that sum to minus the heat gained by the fluid. -/
theorem irreversible_sign (hr : t.reversible = false) (hneg : m < 0) (Tin : ℝ) (Tb : ℕ → ℝ) :
    ∑ v ∈ Finset.range n, t.segmentHeat zu n m cp Tin Tb v = -t.fluidHeat zu n m cp Tin Tb := by
  rw [segments_total hv hm hc hz, sgn_neg hneg hr, fluidHeat_eq]; ring

/-- With irreversible flow everything but the sign in the segment heat depends only on the magnitude. -/
theorem irreversible_par (hr : t.reversible = false) (m cp : ℝ) : t.par m cp = t.par |m| cp := by
  have h : ∀ m, t.isReversed m = false := fun m => by simp [isReversed, hr]
  unfold par iInlet iOutlet
  simp [h]

/-- **C41** (provable part).  With `reversible_flow=False` the outlet temperature, the fluid temperatures
and the fluid heat extraction rate for a negative flow rate are those of the positive flow rate.  Missing:
the segment heat extraction rates, whose sign is wrong (`irreversible_sign`). -/
theorem irreversible_partial (hr : t.reversible = false) (m cp : ℝ) (zu : ℕ → ℝ) (n : ℕ) (Tin : ℝ) (Tb : ℕ → ℝ) :
    t.outletT zu n (-m) cp Tin Tb = t.outletT zu n m cp Tin Tb ∧
    (∀ z i, t.temperature zu n (-m) cp Tin Tb z i = t.temperature zu n m cp Tin Tb z i) ∧
    t.fluidHeat zu n (-m) cp Tin Tb = t.fluidHeat zu n m cp Tin Tb ∧
    ∀ v, t.segmentHeat zu n (-m) cp Tin Tb v = -t.segmentHeat zu n m cp Tin Tb v := by
  have h : ∀ m, t.isReversed m = false := fun m => by simp [isReversed, hr]
  have hpar : t.par (-m) cp = t.par m cp := by
    rw [irreversible_par hr, abs_neg, ← irreversible_par hr]
  refine ⟨?_, ?_, ?_, ?_⟩
  · unfold outletT; rw [hpar]
  · intro z i; rw [temperature_eq, temperature_eq, hpar]; unfold iInlet; simp [h]
  · rw [fluidHeat_eq, fluidHeat_eq]; unfold outletT; rw [hpar, abs_neg]
  · intro v
    rw [segmentHeat_profiles, segmentHeat_profiles, hpar]
    unfold sgn
    simp only [h, Bool.false_eq_true, if_false]
    ring

/-! ### C60 -/

include hv hm hc in
theorem outA_lt : (t.par m cp).outA < 1 := by
  have hp := par_passive hv hm hc
  have h := UPar.outEdge_zero hp
  have h0 : 0 < (t.par m cp).outEdge 0 := by
    rw [UPar.outEdge_eq]
    have h1 : (t.par m cp).e < 1 := by
      unfold UPar.e
      rw [exp_lt_one_iff]
      have : 0 < (t.par m cp).H := hv.H
      have := UPar.gamma_pos hp
      nlinarith
    have h2 : (t.par m cp).Ep (-0) = 1 := by simp [UPar.Ep]
    have h3 : (t.par m cp).Em (-0) = 1 := by simp [UPar.Em]
    rw [h2, h3]
    have := UPar.s_pos hp
    have := UPar.C_pos hp
    have : 0 < 1 - (t.par m cp).e * 1 := by linarith
    positivity
  linarith

include hv hm hc in
/-- Inlet coefficient of the heat extraction rate of a single segment. -/
theorem heatA_single : t.heatA (fun k => if k = 0 then 0 else t.H) m cp 0
    = t.sgn m * cp * ((t.par m cp).outA - 1) := by
  have hz : Edges (fun k => if k = 0 then 0 else t.H) 1 t.H := by
    refine ⟨by norm_num, by simp, by simp, ?_⟩
    intro i j hij _
    rcases Nat.eq_zero_or_pos i with rfl | hi
    · simp only [if_true]; split_ifs
      · exact le_rfl
      · exact hv.H.le
    · rw [if_neg (by omega), if_neg (by omega)]
  have h := segments_total hv hm hc hz 1 (fun _ => 0)
  rw [Finset.sum_range_one] at h
  unfold segmentHeat outletT UPar.outletT at h
  simp only [mul_one, mul_zero, Finset.sum_const_zero, add_zero] at h
  exact h

include hv hm hc hz in
/-- **C60.**  At a uniform wall temperature, the difference between the wall temperature and the mean of
the inlet and outlet fluid temperatures is the effective borehole thermal resistance times the heat
extraction rate per unit length, for any number of segments. -/
theorem effective_resistance (h : 0 < m ∨ t.reversible = true) (Tin Tw : ℝ) :
    Tw - (Tin + t.outletT zu n m cp Tin (fun _ => Tw)) / 2
      = t.effectiveResistance m cp * (t.fluidHeat zu n m cp Tin (fun _ => Tw) / t.H) := by
  have hA := outA_lt hv hm hc
  have hz' : Edges zu n (t.par m cp).H := hz
  have hsum := (UPar.outlet_convex (par_passive hv hm hc) hz').1
  have hM : |m| ≠ 0 := abs_ne_zero.mpr hm
  have hc' := hc.ne'
  have hH := hv.H.ne'
  have hd : (t.par m cp).outA - 1 ≠ 0 := by linarith
  rw [fluidHeat_eq]
  unfold effectiveResistance
  rw [heatA_single hv hm hc, sgn_eq_abs (h.imp_left le_of_lt)]
  have hout : t.outletT zu n m cp Tin (fun _ => Tw) = (t.par m cp).outA * Tin + (1 - (t.par m cp).outA) * Tw := by
    unfold outletT UPar.outletT
    rw [← Finset.sum_mul, ← hsum]; ring
  rw [hout]
  field_simp
  ring

/-- `x coth x ≥ 1`, written with `e^(-2x)`. -/
theorem coth_bound (x : ℝ) (hx : 0 ≤ x) : 1 - exp (-2 * x) ≤ x * (1 + exp (-2 * x)) := by
  have hmono : MonotoneOn (fun x : ℝ => x * (1 + exp (-2 * x)) - (1 - exp (-2 * x))) (Ici 0) := by
    have hder : ∀ x : ℝ, HasDerivAt (fun x : ℝ => x * (1 + exp (-2 * x)) - (1 - exp (-2 * x)))
        (1 - exp (-2 * x) * (1 + 2 * x)) x := by
      intro x
      have he : HasDerivAt (fun x : ℝ => exp (-2 * x)) (exp (-2 * x) * (-2 * 1)) x :=
        ((hasDerivAt_id x).const_mul (-2)).exp
      have := ((hasDerivAt_id x).mul (he.const_add 1)).sub (he.const_sub 1)
      refine HasDerivAt.congr_deriv this ?_
      simp only [id]
      ring
    apply monotoneOn_of_deriv_nonneg (convex_Ici 0)
    · exact fun x _ => (hder x).continuousAt.continuousWithinAt
    · exact fun x _ => (hder x).differentiableAt.differentiableWithinAt
    · intro x _
      rw [(hder x).deriv]
      have h1 := add_one_le_exp (2 * x)
      have h2 : exp (-2 * x) * exp (2 * x) = 1 := by rw [← exp_add]; simp
      have h3 := exp_pos (-2 * x)
      nlinarith
  have := hmono (a := 0) (b := x) (by simp) (by simpa using hx) hx
  simp only [mul_zero, exp_zero, zero_mul, sub_self] at this
  linarith

include hv hm hc in
/-- **C60** (bound).  The effective borehole thermal resistance is never below the local borehole thermal
resistance, whatever the flow rate; in particular it is positive. -/
theorem effective_ge_local (h : 0 < m ∨ t.reversible = true) :
    0 < t.localResistance ∧ t.localResistance ≤ t.effectiveResistance m cp := by
  have hp := par_passive hv hm hc
  have hG := hv.sum
  have hM : 0 < |m| := abs_pos.mpr hm
  have hpos : 0 < t.localResistance := by unfold localResistance; positivity
  refine ⟨hpos, ?_⟩
  obtain ⟨p, hpd⟩ : ∃ p, p = t.par m cp := ⟨_, rfl⟩
  have hloc : p.b1 + p.b2 = 1 / (t.localResistance * (|m| * cp)) := by
    rw [hpd]
    unfold par localResistance iInlet iOutlet
    cases t.isReversed m
    · simp only [Bool.false_eq_true, if_false]
      field_simp
    · simp only [if_true]
      field_simp
      ring
  have hA := outA_lt hv hm hc
  unfold effectiveResistance
  rw [heatA_single hv hm hc, sgn_eq_abs (h.imp_left le_of_lt)]
  rw [← hpd] at hp hA ⊢
  have hH : p.H = t.H := by rw [hpd]; rfl
  have hγ := UPar.gamma_pos hp
  have hs := UPar.s_pos hp
  have hden := UPar.den_pos hp
  have hx : 0 ≤ p.gamma * p.H := mul_nonneg hγ.le hp.H
  have hcoth := coth_bound _ hx
  have he : exp (-2 * (p.gamma * p.H)) = p.e := by unfold UPar.e; congr 1; ring
  rw [he] at hcoth
  have hoA : p.outA = (p.A + p.B * p.e) / (p.B + p.A * p.e) := rfl
  have h1A : 0 < 1 - p.outA := by linarith
  have hs2 : p.b1 + p.b2 = 2 * p.gamma * p.s := by unfold UPar.s; field_simp
  -- (1 + outA) / (1 - outA) = (1 + e) / (s (1 - e))
  have e1 : 1 + p.outA = 2 * (1 + p.e) / (p.B + p.A * p.e) := by
    rw [hoA, UPar.A_eq, UPar.B_eq] at *
    field_simp
    ring
  have e2 : 1 - p.outA = 2 * p.s * (1 - p.e) / (p.B + p.A * p.e) := by
    rw [hoA, UPar.A_eq, UPar.B_eq] at *
    field_simp
    ring
  have he1 : 0 < 1 - p.e := by
    rw [e2] at h1A
    have := (div_pos_iff_of_pos_right hden).mp h1A
    by_contra hcon
    nlinarith
  have hloc' : t.localResistance = 1 / (2 * p.gamma * p.s * (|m| * cp)) := by
    rw [hs2] at hloc
    rw [hloc]
    field_simp
  rw [hloc', show -(1 / 2) * t.H * (1 + p.outA) / (|m| * cp * (p.outA - 1))
      = t.H * (1 + p.outA) / (2 * (|m| * cp) * (1 - p.outA)) by
    rw [div_eq_div_iff (mul_ne_zero (mul_pos hM hc).ne' (by linarith)) (by positivity)]
    ring, e1, e2]
  rw [div_le_div_iff₀ (by positivity) (by positivity)]
  have hMc : 0 < |m| * cp := mul_pos hM hc
  rw [show 1 * (2 * (|m| * cp) * (2 * p.s * (1 - p.e) / (p.B + p.A * p.e)))
      = (4 * (|m| * cp) * p.s / (p.B + p.A * p.e)) * (1 - p.e) by ring,
    show t.H * (2 * (1 + p.e) / (p.B + p.A * p.e)) * (2 * p.gamma * p.s * (|m| * cp))
      = (4 * (|m| * cp) * p.s / (p.B + p.A * p.e)) * (p.gamma * t.H * (1 + p.e)) by ring]
  rw [hH] at hcoth
  exact mul_le_mul_of_nonneg_left hcoth (by positivity)

/-! ### Inlet temperature for a heat extraction rate -/

include hv hm hc in
/-- **C40** (inlet).  The inlet temperature returned for a fluid heat extraction rate exists and gives that
rate. -/
theorem inlet_roundtrip (zu : ℕ → ℝ) (n : ℕ) (Q : ℝ) (Tb : ℕ → ℝ) :
    ∃ Tin, t.inletT zu n m cp Q Tb = some Tin ∧ t.fluidHeat zu n m cp Tin Tb = Q := by
  have hA := outA_lt hv hm hc
  have hM : 0 < |m| := abs_pos.mpr hm
  have hne : -(|m| * cp) + |m| * cp * (t.par m cp).outA ≠ 0 := by
    have : -(|m| * cp) + |m| * cp * (t.par m cp).outA = |m| * cp * ((t.par m cp).outA - 1) := by ring
    rw [this]
    exact mul_ne_zero (mul_pos hM hc).ne' (by linarith)
  refine ⟨_, by unfold inletT; rw [if_neg hne], ?_⟩
  unfold fluidHeat
  rw [mul_add, Finset.mul_sum, ← mul_assoc, mul_inv_cancel₀ hne, one_mul, add_assoc, ← Finset.sum_add_distrib]
  rw [Finset.sum_eq_zero, add_zero]
  intro u _
  have : (-(|m| * cp) + |m| * cp * (t.par m cp).outA) * (-((-(|m| * cp) + |m| * cp * (t.par m cp).outA)⁻¹
      * (|m| * cp * (t.par m cp).outB zu u)) * Tb u) = -(|m| * cp * (t.par m cp).outB zu u * Tb u) := by
    rw [← mul_assoc, mul_neg, ← mul_assoc, mul_inv_cancel₀ hne]; ring
  rw [this]; ring

/-- **C41** (witness).  A borehole for which the two disagree: heat of opposite signs. -/
theorem irreversible_fails : ∃ (t : UTube) (m cp Tin Tw : ℝ), t.Valid ∧ t.reversible = false ∧
    ∑ v ∈ Finset.range 1, t.segmentHeat (fun k => t.H * k) 1 (-m) cp Tin (fun _ => Tw) v < 0 ∧
    0 < ∑ v ∈ Finset.range 1, t.segmentHeat (fun k => t.H * k) 1 m cp Tin (fun _ => Tw) v ∧
    0 < t.fluidHeat (fun k => t.H * k) 1 (-m) cp Tin (fun _ => Tw) := by
  have hz : Edges (fun k => (sample false).H * (k : ℝ)) 1 (sample false).H :=
    ⟨by norm_num, by norm_num, by norm_num, fun i j hij _ => by
      have : (i : ℝ) ≤ j := by exact_mod_cast hij
      have h : 0 ≤ (sample false).H := by norm_num [sample, singleUTube]
      exact mul_le_mul_of_nonneg_left this h⟩
  have hv := sample_valid false
  have key : ∀ m : ℝ, m ≠ 0 → 0 < (sample false).fluidHeat (fun k => (sample false).H * k) 1 m 4 0 (fun _ => 1) := by
    intro m hm
    have hp := par_passive hv hm (show (0 : ℝ) < 4 by norm_num)
    have hc := (UPar.outlet_convex (p := (sample false).par m 4) hp hz).1
    have hA := outA_lt hv hm (show (0 : ℝ) < 4 by norm_num)
    rw [fluidHeat_eq]
    unfold outletT UPar.outletT
    simp only [mul_zero, zero_add, mul_one, sub_zero]
    have : 0 < |m| := abs_pos.mpr hm
    have h2 : 0 < ∑ u ∈ Finset.range 1, ((sample false).par m 4).outB (fun k => (sample false).H * k) u := by linarith
    positivity
  refine ⟨sample false, 1, 4, 0, 1, hv, rfl, ?_, ?_, key (-1) (by norm_num)⟩
  · rw [irreversible_sign hv (by norm_num) (by norm_num) hz rfl (by norm_num)]
    linarith [key (-1) (by norm_num)]
  · rw [(energy_balance hv (by norm_num) (by norm_num) hz (Or.inl one_pos) _ _).1]
    exact key 1 one_ne_zero


/-! ### The U-tube as a borehole model of a network -/

/-- The coefficients that a network obtains from a single U-tube with `k` segments. -/
def netPipe (t : UTube) (zu : ℕ → ℝ) (k : ℕ) : Net.Pipe k where
  outA := fun m cp => (t.par m cp).outA
  outB := fun m cp u => (t.par m cp).outB zu u
  heatA := fun m cp v => t.heatA zu m cp v
  heatB := fun m cp v u => t.heatB zu m cp v u

theorem sum_single (k : ℕ) (s' : Fin k) (f : ℕ → ℝ) :
    ∑ u ∈ Finset.range k, f u * (if u = (s' : ℕ) then 1 else 0) = f s' := by
  rw [Finset.sum_eq_single (s' : ℕ)]
  · simp
  · intro u _ h; simp [h]
  · intro h; exact absurd (Finset.mem_range.mpr s'.2) h

include hv hm hc hz in
/-- The heat balance of each coefficient. -/
theorem netPipe_balance (h : 0 < m ∨ t.reversible = true) :
    (∑ s : Fin n, (t.netPipe zu n).heatA m cp s = (t.netPipe zu n).fluidA m cp) ∧
    ∀ s' : Fin n, ∑ s : Fin n, (t.netPipe zu n).heatB m cp s s' = (t.netPipe zu n).fluidB m cp s' := by
  constructor
  · have := (energy_balance hv hm hc hz h 1 (fun _ => 0)).1
    unfold segmentHeat fluidHeat at this
    simp only [mul_one, mul_zero, Finset.sum_const_zero, add_zero] at this
    unfold Net.Pipe.fluidA netPipe
    dsimp only
    rw [Fin.sum_univ_eq_sum_range (fun v => t.heatA zu m cp v), this]
  · intro s'
    have := (energy_balance hv hm hc hz h 0 (fun u => if u = (s' : ℕ) then 1 else 0)).1
    unfold segmentHeat fluidHeat at this
    simp only [mul_zero, zero_add] at this
    rw [sum_single n s' (fun u => |m| * cp * (t.par m cp).outB zu u)] at this
    unfold Net.Pipe.fluidB netPipe
    dsimp only
    rw [Fin.sum_univ_eq_sum_range (fun v => t.heatB zu m cp v s'), ← this]
    exact Finset.sum_congr rfl fun v _ => (sum_single n s' (fun u => t.heatB zu m cp v u)).symm

include hv hm hc hz in
/-- At equal temperatures nothing happens. -/
theorem netPipe_equilibrium :
    ((t.netPipe zu n).outA m cp + ∑ s, (t.netPipe zu n).outB m cp s = 1) ∧
    ∀ s : Fin n, (t.netPipe zu n).heatA m cp s + ∑ s', (t.netPipe zu n).heatB m cp s s' = 0 := by
  have hz' : Edges zu n (t.par m cp).H := hz
  have hp := par_passive hv hm hc
  constructor
  · unfold netPipe
    dsimp only
    rw [Fin.sum_univ_eq_sum_range (fun u => (t.par m cp).outB zu u)]
    exact (UPar.outlet_convex hp hz').1
  · -- the constant profile solves the equations
    have hconst : UPar.Solution (t.par m cp) zu n 1 (fun _ => 1) (fun _ => 1) (fun _ => 1) :=
      ⟨fun k _ z _ => by simpa using hasDerivAt_const z (1 : ℝ), fun k _ z _ => by simpa using hasDerivAt_const z (1 : ℝ),
        continuousOn_const, continuousOn_const, rfl, rfl⟩
    have huniq := UPar.profile_unique hp hz' 1 (fun _ => 1) _ _ hconst
    intro s
    have hin : ∀ k ≤ n, zu k ∈ Icc 0 (t.par m cp).H := fun k hk =>
      ⟨by rw [← hz'.zero]; exact hz'.mono 0 k (Nat.zero_le _) hk, by rw [← hz'.last]; exact hz'.mono k n hk le_rfl⟩
    have := segmentHeat_profiles (t := t) m cp zu n 1 (fun _ => 1) s
    have hs := s.2
    rw [← (huniq _ (hin (s + 1) (by omega))).1, ← (huniq _ (hin (s + 1) (by omega))).2,
      ← (huniq _ (hin s (by omega))).1, ← (huniq _ (hin s (by omega))).2] at this
    unfold segmentHeat at this
    simp only [mul_one, sub_self, mul_zero] at this
    unfold netPipe
    dsimp only
    rw [Fin.sum_univ_eq_sum_range (fun u => t.heatB zu m cp s u)]
    exact this

open Net in
/-- **C35, C40** combined.  In a network of single U-tubes the heat extracted by all segments of all boreholes is
the heat gained by the fluid in the network (the hypotheses on the borehole model of
`Net.segment_heat_balance` hold). -/
theorem network_segment_balance {N : ℕ} {ns : Fin N → ℕ} {top : Topology} (u : Fin N → UTube)
    (hu : ∀ i, (u i).Valid) (edges : Fin N → ℕ → ℝ) (he : ∀ i, Edges (edges i) (ns i) (u i).H) (f : Formatted)
    (hcp : 0 < f.cp) (hflow : ∀ i : Fin N, mBore top f i ≠ 0)
    (hr : ∀ i : Fin N, 0 < mBore top f i ∨ (u i).reversible = true)
    (k : Coef (Fin N) ns) (Tin : ℝ) (Tb : SegIdx ns → ℝ) :
    ∑ s, (boreHeat top (fun i => (u i).netPipe (edges i) (ns i)) f k).eval Tin Tb s
      = (netHeat (Net.fluidHeat top (fun i => (u i).netPipe (edges i) (ns i)) f k)).eval Tin Tb () :=
  segment_heat_balance _ f (fun i => (netPipe_balance (hu i) (hflow i) hcp (he i) (hr i)).1)
    (fun i => (netPipe_balance (hu i) (hflow i) hcp (he i) (hr i)).2) k Tin Tb

/-- Non-vacuity: two U-tubes in series. -/
example : ∃ top, Net.construct 2 (some [-1, 0]) = .ok top ∧
    ∀ i : Fin 2, Net.mBore top ⟨[1], false, 4⟩ i = 1 := by
  refine ⟨⟨2, [-1, 0], 1, 1, [0], [1], [0, 0]⟩, rfl, ?_⟩
  intro i
  fin_cases i <;> simp [Net.mBore]

end UTube

end Verif.Pipe
