import Verif.Pipe.UTubeModel
import Mathlib.Analysis.SpecialFunctions.ExpDeriv

/-! # Algebra of the single U-tube coefficients -/

noncomputable section

namespace Verif.Pipe

open Real

namespace UPar

/-- Passive delta-circuit: non-negative length, positive total conductance to the wall and
positive determinant of the conductance matrix.  The pipe to pipe conductance may be negative. -/
structure Passive (p : UPar) : Prop where
  H : 0 ≤ p.H
  sum : 0 < p.b1 + p.b2
  det : 0 < p.b1 * p.b2 + p.b12 * (p.b1 + p.b2)

theorem passive_of_pos {p : UPar} (hH : 0 ≤ p.H) (h1 : 0 < p.b1) (h2 : 0 < p.b2) (h12 : 0 ≤ p.b12) : p.Passive :=
  ⟨hH, by linarith, by positivity⟩

variable {p : UPar} (hp : p.Passive)
include hp

theorem gamma_sq : p.gamma ^ 2 = p.beta ^ 2 + (p.b1 * p.b2 + p.b12 * (p.b1 + p.b2)) := by
  have := hp.det
  have h0 : 1 / 4 * (p.b1 + p.b2) ^ 2 + p.b12 * (p.b1 + p.b2) = p.beta ^ 2 + (p.b1 * p.b2 + p.b12 * (p.b1 + p.b2)) := by
    unfold beta; ring
  unfold gamma
  rw [Real.sq_sqrt (by rw [h0]; positivity), h0]

theorem gamma_pos : 0 < p.gamma := by
  have h := gamma_sq hp
  have := hp.det
  have h0 : 0 ≤ p.gamma := Real.sqrt_nonneg _
  rcases h0.lt_or_eq with h1 | h1
  · exact h1
  · rw [← h1] at h; nlinarith [sq_nonneg p.beta]

theorem abs_beta_lt : |p.beta| < p.gamma := by
  apply abs_lt_of_sq_lt_sq _ (gamma_pos hp).le
  rw [gamma_sq hp]; linarith [hp.det]

theorem sum_pos : 0 < p.beta + p.gamma := by have := (abs_lt.mp (abs_beta_lt hp)).1; linarith
theorem diff_neg : p.beta - p.gamma < 0 := by have := (abs_lt.mp (abs_beta_lt hp)).2; linarith

omit hp in
/-- Normal form: `s = (b1 + b2) / (2 gamma)`, `b = b12 / gamma`. -/
def s (p : UPar) : ℝ := 1 / 2 * (p.b1 + p.b2) / p.gamma
omit hp in
def b (p : UPar) : ℝ := p.b12 / p.gamma

theorem s_pos : 0 < p.s := by have := gamma_pos hp; have := hp.sum; unfold s; positivity
theorem b1_eq : p.b1 = p.gamma * p.s - p.beta := by
  have := (gamma_pos hp).ne'; unfold s beta; field_simp; ring
theorem b2_eq : p.b2 = p.gamma * p.s + p.beta := by
  have := (gamma_pos hp).ne'; unfold s beta; field_simp; ring
theorem b12_eq : p.b12 = p.gamma * p.b := by
  have := (gamma_pos hp).ne'; unfold b; field_simp
theorem quad : p.s ^ 2 + 2 * p.b * p.s = 1 := by
  have h := gamma_sq hp
  have h1 := b1_eq hp; have h2 := b2_eq hp; have h3 := b12_eq hp
  have hg := gamma_pos hp
  rw [h1, h2, h3] at h
  have : p.gamma ^ 2 * (p.s ^ 2 + 2 * p.b * p.s) = p.gamma ^ 2 * 1 := by
    linear_combination -h
  exact mul_left_cancel₀ (by positivity) this

omit hp in
theorem A_eq : p.A = 1 - p.s := rfl
omit hp in
theorem B_eq : p.B = 1 + p.s := rfl

theorem delta_eq : p.delta = p.b + p.s := by
  have := (gamma_pos hp).ne'
  unfold delta b s; field_simp

theorem A4_eq : p.A4 = -p.A := by
  have hg := gamma_pos hp
  have hs := sum_pos hp
  unfold A4
  rw [div_eq_iff hs.ne', delta_eq hp, A_eq]
  have h3 : p.b2 * p.b12 / p.gamma = p.b2 * p.b := by rw [b, mul_div_assoc]
  rw [h3, b1_eq hp, b2_eq hp]
  linear_combination (-p.gamma) * quad hp

theorem B4_eq : p.B4 = -p.B := by
  have hg := gamma_pos hp
  have hs := diff_neg hp
  unfold B4
  rw [div_eq_iff hs.ne, delta_eq hp, B_eq]
  have h3 : p.b2 * p.b12 / p.gamma = p.b2 * p.b := by rw [b, mul_div_assoc]
  rw [h3, b1_eq hp, b2_eq hp]
  linear_combination p.gamma * quad hp

theorem A5_eq : p.A5 = p.B := by
  have hg := gamma_pos hp
  have hs := sum_pos hp
  unfold A5
  rw [div_eq_iff hs.ne', delta_eq hp, B_eq]
  have h3 : p.b1 * p.b12 / p.gamma = p.b1 * p.b := by rw [b, mul_div_assoc]
  rw [h3, b1_eq hp, b2_eq hp]
  linear_combination p.gamma * quad hp

theorem B5_eq : p.B5 = p.A := by
  have hg := gamma_pos hp
  have hs := diff_neg hp
  unfold B5
  rw [div_eq_iff hs.ne, delta_eq hp, A_eq]
  have h3 : p.b1 * p.b12 / p.gamma = p.b1 * p.b := by rw [b, mul_div_assoc]
  rw [h3, b1_eq hp, b2_eq hp]
  linear_combination (-p.gamma) * quad hp

omit hp in
theorem sum_div : (p.b1 + p.b2) / p.gamma = 2 * p.s := by unfold s; ring

theorem a04_eq : p.a04 = p.A * p.B := by
  have h : p.a04 = p.b * ((p.b1 + p.b2) / p.gamma) := by unfold a04 b; ring
  rw [h, sum_div, A_eq, B_eq]
  linear_combination quad hp

theorem a05_eq : p.a05 = -(p.A * p.B) := by
  have h : p.a05 = -p.a04 := by unfold a05 a04; ring
  rw [h, a04_eq hp]

theorem a14_eq : p.a14 = p.B ^ 2 := by
  have h : p.a14 = (p.delta + 1) * ((p.b1 + p.b2) / p.gamma) := by unfold a14; ring
  rw [h, sum_div, delta_eq hp, B_eq]
  linear_combination quad hp

theorem a15_eq : p.a15 = p.A ^ 2 := by
  have h : p.a15 = (p.delta - 1) * ((p.b1 + p.b2) / p.gamma) := by unfold a15; ring
  rw [h, sum_div, delta_eq hp, A_eq]
  linear_combination quad hp

omit hp in
/-- `exp(-2 gamma H)`. -/
def e (p : UPar) : ℝ := exp (-2 * p.gamma * p.H)

omit hp in
theorem e_pos : 0 < p.e := exp_pos _
theorem e_le : p.e ≤ 1 := by
  have := gamma_pos hp; have := hp.H
  unfold e
  rw [exp_le_one_iff]
  have : 0 ≤ p.gamma * p.H := by positivity
  linarith

omit hp in
theorem C_def : p.C = 1 / (p.B + p.A * p.e) := rfl

theorem den_pos : 0 < p.B + p.A * p.e := by
  have h1 := s_pos hp; have h2 := e_le hp; have h3 := e_pos (p := p)
  rw [A_eq, B_eq]
  nlinarith [mul_nonneg h1.le (sub_nonneg.mpr h2)]

theorem C_pos : 0 < p.C := by rw [C_def]; exact one_div_pos.mpr (den_pos hp)

theorem C_mul : p.C * (p.B + p.A * p.e) = 1 := by
  rw [C_def]; exact one_div_mul_cancel (den_pos hp).ne'

/-! Modes of the fluid balance. -/

omit hp in
def Ep (p : UPar) (z : ℝ) : ℝ := exp ((p.beta + p.gamma) * z)
omit hp in
def Em (p : UPar) (z : ℝ) : ℝ := exp ((p.beta - p.gamma) * z)

theorem inDown_eq (z : ℝ) : p.inDown z = p.C * (p.A * p.e * p.Ep z + p.B * p.Em z) := by
  have h1 : (1 - p.delta) * p.A + p.b12 / p.gamma * p.B = 2 * p.A := by
    have : p.b12 / p.gamma = p.b := rfl
    rw [this, delta_eq hp, A_eq, B_eq]; linear_combination quad hp
  have h2 : (1 + p.delta) * p.B - p.b12 / p.gamma * p.A = 2 * p.B := by
    have : p.b12 / p.gamma = p.b := rfl
    rw [this, delta_eq hp, A_eq, B_eq]; linear_combination quad hp
  have h3 : exp ((p.beta + p.gamma) * z - 2 * p.gamma * p.H) = p.e * p.Ep z := by
    unfold e Ep; rw [← exp_add]; congr 1; ring
  unfold inDown
  rw [h1, h2, h3]
  unfold Em
  ring

theorem inUp_eq (z : ℝ) : p.inUp z = p.C * (p.B * p.e * p.Ep z + p.A * p.Em z) := by
  have h1 : (1 - p.delta) * p.A + p.b12 / p.gamma * p.B = 2 * p.A := by
    have : p.b12 / p.gamma = p.b := rfl
    rw [this, delta_eq hp, A_eq, B_eq]; linear_combination quad hp
  have h2 : (1 + p.delta) * p.B - p.b12 / p.gamma * p.A = 2 * p.B := by
    have : p.b12 / p.gamma = p.b := rfl
    rw [this, delta_eq hp, A_eq, B_eq]; linear_combination quad hp
  have h3 : exp ((p.beta + p.gamma) * z - 2 * p.gamma * p.H) = p.e * p.Ep z := by
    unfold e Ep; rw [← exp_add]; congr 1; ring
  unfold inUp
  rw [h1, h2, h3]
  unfold Em
  ring

omit hp in
theorem Ep_sub (z u : ℝ) : exp ((p.beta + p.gamma) * (z - u)) = p.Ep z * p.Ep (-u) := by
  unfold Ep; rw [← exp_add]; congr 1; ring
omit hp in
theorem Em_sub (z u : ℝ) : exp ((p.beta - p.gamma) * (z - u)) = p.Em z * p.Em (-u) := by
  unfold Em; rw [← exp_add]; congr 1; ring
omit hp in
theorem Ep_sub_e (z u : ℝ) : exp ((p.beta + p.gamma) * (z - u) - 2 * p.gamma * p.H) = p.e * p.Ep z * p.Ep (-u) := by
  unfold Ep e; rw [← exp_add, ← exp_add]; congr 1; ring
omit hp in
theorem Em_sub_e (z u : ℝ) : exp ((p.beta - p.gamma) * (z - u) - 2 * p.gamma * p.H) = p.e * p.Em z * p.Em (-u) := by
  unfold Em e; rw [← exp_add, ← exp_add]; congr 1; ring
omit hp in
theorem Em_Ep (z u : ℝ) : exp ((p.beta - p.gamma) * z - (p.beta + p.gamma) * u) = p.Em z * p.Ep (-u) := by
  unfold Em Ep; rw [← exp_add]; congr 1; ring
omit hp in
theorem Ep_Em_e (z u : ℝ) : exp ((p.beta + p.gamma) * z - (p.beta - p.gamma) * u - 2 * p.gamma * p.H)
    = p.e * p.Ep z * p.Em (-u) := by
  unfold Em Ep e; rw [← exp_add, ← exp_add]; congr 1; ring

omit hp in
/-- Amplitudes of the two modes for an edge at `u`, above and below `z`. -/
def cpP (p : UPar) (u : ℝ) : ℝ := 1 / 2 * (p.A * p.e * p.Ep (-u) + p.B * p.e * p.Em (-u))
omit hp in
def cmP (p : UPar) (u : ℝ) : ℝ := 1 / 2 * (p.B * p.Em (-u) + p.A * p.Ep (-u))
omit hp in
def cpM (p : UPar) (u : ℝ) : ℝ := 1 / 2 * (-p.B * p.Ep (-u) + p.B * p.e * p.Em (-u))
omit hp in
def cmM (p : UPar) (u : ℝ) : ℝ := 1 / 2 * (p.A * p.Ep (-u) - p.A * p.e * p.Em (-u))

theorem downP_eq (z u : ℝ) : p.downP z u = p.A * p.cpP u * p.Ep z + p.B * p.cmP u * p.Em z := by
  unfold downP a01 a02 a03 cpP cmP
  rw [Ep_sub_e, Em_sub, Em_sub_e, Em_Ep, Ep_Em_e, A4_eq hp, B4_eq hp, a04_eq hp, a05_eq hp]
  ring

theorem upP_eq (z u : ℝ) : p.upP z u = p.B * p.cpP u * p.Ep z + p.A * p.cmP u * p.Em z := by
  unfold upP a11 a12 a13 cpP cmP
  rw [Ep_sub_e, Em_sub, Em_sub_e, Em_Ep, Ep_Em_e, A5_eq hp, B5_eq hp, a14_eq hp, a15_eq hp]
  ring

theorem downM_eq (z u : ℝ) :
    p.downM z u = (p.B + p.A * p.e) + p.A * p.cpM u * p.Ep z + p.B * p.cmM u * p.Em z := by
  unfold downM a00 a01 a02 a03 cpM cmM
  rw [Ep_sub, Em_sub_e, Em_Ep, Ep_Em_e, A4_eq hp, B4_eq hp, a04_eq hp, a05_eq hp]
  have h : exp (-2 * p.gamma * p.H) = p.e := rfl
  rw [h, A_eq, B_eq]
  ring

theorem upM_eq (z u : ℝ) :
    p.upM z u = (p.B + p.A * p.e) + p.B * p.cpM u * p.Ep z + p.A * p.cmM u * p.Em z := by
  unfold upM a10 a11 a12 a13 cpM cmM
  rw [Ep_sub, Em_sub_e, Em_Ep, Ep_Em_e, A5_eq hp, B5_eq hp, a14_eq hp, a15_eq hp]
  have h : exp (-2 * p.gamma * p.H) = p.e := rfl
  rw [h, A_eq, B_eq]
  ring

omit hp in
theorem Ep_mul (u : ℝ) : p.Ep u * p.Ep (-u) = 1 := by
  unfold Ep; rw [← exp_add]; simp
omit hp in
theorem Em_mul (u : ℝ) : p.Em u * p.Em (-u) = 1 := by
  unfold Em; rw [← exp_add]; simp

/-- The two branches agree at the edge. -/
theorem down_match (u : ℝ) : p.downP u u = p.downM u u := by
  rw [downP_eq hp, downM_eq hp]
  unfold cpP cmP cpM cmM
  have h1 := Ep_mul (p := p) u
  have h2 := Em_mul (p := p) u
  rw [A_eq, B_eq]
  linear_combination (1 / 2 * (1 - p.s) * (1 - p.s) * p.e + 1 / 2 * (1 - p.s) * (1 + p.s)) * h1
    + (1 / 2 * (1 + p.s) * (1 + p.s) + 1 / 2 * (1 + p.s) * (1 - p.s) * p.e) * h2

theorem up_match (u : ℝ) : p.upP u u = p.upM u u := by
  rw [upP_eq hp, upM_eq hp]
  unfold cpP cmP cpM cmM
  have h1 := Ep_mul (p := p) u
  have h2 := Em_mul (p := p) u
  rw [A_eq, B_eq]
  linear_combination (1 / 2 * (1 + p.s) * (1 - p.s) * p.e + 1 / 2 * (1 + p.s) * (1 + p.s)) * h1
    + (1 / 2 * (1 - p.s) * (1 + p.s) + 1 / 2 * (1 - p.s) * (1 - p.s) * p.e) * h2

omit hp in
theorem Ep_deriv (z : ℝ) : HasDerivAt p.Ep ((p.beta + p.gamma) * p.Ep z) z := by
  have h := ((hasDerivAt_id z).const_mul (p.beta + p.gamma)).exp
  simp only [id, mul_one] at h
  rw [mul_comm]
  exact h

omit hp in
theorem Em_deriv (z : ℝ) : HasDerivAt p.Em ((p.beta - p.gamma) * p.Em z) z := by
  have h := ((hasDerivAt_id z).const_mul (p.beta - p.gamma)).exp
  simp only [id, mul_one] at h
  rw [mul_comm]
  exact h

/-- A combination of the modes and a constant solves the balance with a uniform wall temperature. -/
theorem mode_ode (K x y z : ℝ) :
    HasDerivAt (fun z => K + p.A * x * p.Ep z + p.B * y * p.Em z)
      (-p.b1 * ((K + p.A * x * p.Ep z + p.B * y * p.Em z) - K)
        - p.b12 * ((K + p.A * x * p.Ep z + p.B * y * p.Em z) - (K + p.B * x * p.Ep z + p.A * y * p.Em z))) z ∧
    HasDerivAt (fun z => K + p.B * x * p.Ep z + p.A * y * p.Em z)
      (p.b2 * ((K + p.B * x * p.Ep z + p.A * y * p.Em z) - K)
        + p.b12 * ((K + p.B * x * p.Ep z + p.A * y * p.Em z) - (K + p.A * x * p.Ep z + p.B * y * p.Em z))) z := by
  have h1 := Ep_deriv (p := p) z
  have h2 := Em_deriv (p := p) z
  refine ⟨?_, ?_⟩
  · have h : HasDerivAt (fun z => K + p.A * x * p.Ep z + p.B * y * p.Em z) _ z :=
      ((h1.const_mul (p.A * x)).const_add K).add (h2.const_mul (p.B * y))
    refine h.congr_deriv ?_
    rw [b1_eq hp, b12_eq hp, A_eq, B_eq]
    linear_combination (-p.gamma * (p.Ep z * x - p.Em z * y)) * quad hp
  · have h : HasDerivAt (fun z => K + p.B * x * p.Ep z + p.A * y * p.Em z) _ z :=
      ((h1.const_mul (p.B * x)).const_add K).add (h2.const_mul (p.A * y))
    refine h.congr_deriv ?_
    rw [b2_eq hp, b12_eq hp, A_eq, B_eq]
    linear_combination (-p.gamma * (p.Ep z * x - p.Em z * y)) * quad hp

end UPar

end Verif.Pipe
