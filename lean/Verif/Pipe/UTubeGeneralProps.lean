import Verif.Pipe.UTubeGeneralModel
import Verif.Pipe.UTubeHeatProps

/-!
# Property C160: the explicit formulas of a single U-tube and the general method
-/

noncomputable section

namespace Verif.Pipe

open Real Set Matrix

namespace UPar

variable {p : UPar} (hp : p.Passive)
include hp

omit hp in
theorem exp_cosh (z : ℝ) : exp (p.beta * z) * cosh (p.gamma * z) = (p.Ep z + p.Em z) / 2 := by
  have h1 : p.Ep z = exp (p.beta * z) * exp (p.gamma * z) := by unfold Ep; rw [← exp_add]; congr 1; ring
  have h2 : p.Em z = exp (p.beta * z) * exp (-(p.gamma * z)) := by unfold Em; rw [← exp_add]; congr 1; ring
  rw [h1, h2, cosh_eq]; ring

omit hp in
theorem exp_sinh (z : ℝ) : exp (p.beta * z) * sinh (p.gamma * z) = (p.Ep z - p.Em z) / 2 := by
  have h1 : p.Ep z = exp (p.beta * z) * exp (p.gamma * z) := by unfold Ep; rw [← exp_add]; congr 1; ring
  have h2 : p.Em z = exp (p.beta * z) * exp (-(p.gamma * z)) := by unfold Em; rw [← exp_add]; congr 1; ring
  rw [h1, h2, sinh_eq]; ring

theorem f1_eq (z : ℝ) : p.f1 z = ((1 - (p.b + p.s)) * p.Ep z + (1 + (p.b + p.s)) * p.Em z) / 2 := by
  unfold f1
  rw [delta_eq hp]
  linear_combination exp_cosh z - (p.b + p.s) * exp_sinh z

omit hp in
theorem f2_eq (z : ℝ) : p.f2 z = p.b * (p.Ep z - p.Em z) / 2 := by
  have : p.f2 z = p.b * (exp (p.beta * z) * sinh (p.gamma * z)) := by unfold f2 b; ring
  rw [this, exp_sinh]; ring

theorem f3_eq (z : ℝ) : p.f3 z = ((1 + (p.b + p.s)) * p.Ep z + (1 - (p.b + p.s)) * p.Em z) / 2 := by
  unfold f3
  rw [delta_eq hp]
  linear_combination exp_cosh z + (p.b + p.s) * exp_sinh z

theorem F4_eq (z : ℝ) : p.F4 z = -(p.A * p.Ep z + p.B * p.Em z) / 2 := by
  have h1 := sum_pos hp
  have h2 := diff_neg hp
  have hA := A4_eq hp
  have hB := B4_eq hp
  unfold A4 at hA
  unfold B4 at hB
  rw [div_eq_iff h1.ne'] at hA
  rw [div_eq_iff h2.ne] at hB
  have hd : p.beta ^ 2 - p.gamma ^ 2 ≠ 0 := by
    rw [show p.beta ^ 2 - p.gamma ^ 2 = (p.beta + p.gamma) * (p.beta - p.gamma) by ring]
    exact mul_ne_zero h1.ne' h2.ne
  unfold F4
  rw [div_mul_eq_mul_div, div_eq_iff hd]
  obtain ⟨x, hx⟩ : ∃ x, x = p.b2 * p.b12 / p.gamma := ⟨_, rfl⟩
  rw [← hx] at hA hB ⊢
  linear_combination (p.b1 * p.beta + (p.delta * p.b1 + x) * p.gamma) * exp_cosh z
    - (p.b1 * p.gamma + p.beta * (p.delta * p.b1 + x)) * exp_sinh z
    + (p.beta - p.gamma) * p.Ep z / 2 * hA + (p.beta + p.gamma) * p.Em z / 2 * hB

theorem F5_eq (z : ℝ) : p.F5 z = (p.B * p.Ep z + p.A * p.Em z) / 2 := by
  have h1 := sum_pos hp
  have h2 := diff_neg hp
  have hA := A5_eq hp
  have hB := B5_eq hp
  unfold A5 at hA
  unfold B5 at hB
  rw [div_eq_iff h1.ne'] at hA
  rw [div_eq_iff h2.ne] at hB
  have hd : p.beta ^ 2 - p.gamma ^ 2 ≠ 0 := by
    rw [show p.beta ^ 2 - p.gamma ^ 2 = (p.beta + p.gamma) * (p.beta - p.gamma) by ring]
    exact mul_ne_zero h1.ne' h2.ne
  unfold F5
  rw [div_mul_eq_mul_div, div_eq_iff hd]
  obtain ⟨x, hx⟩ : ∃ x, x = p.b1 * p.b12 / p.gamma := ⟨_, rfl⟩
  rw [← hx] at hA hB ⊢
  linear_combination (p.b2 * p.beta - (p.delta * p.b2 + x) * p.gamma) * exp_cosh z
    - (p.b2 * p.gamma - p.beta * (p.delta * p.b2 + x)) * exp_sinh z
    + (p.beta - p.gamma) * p.Ep z / 2 * hA + (p.beta + p.gamma) * p.Em z / 2 * hB

theorem f31 (z : ℝ) : p.f3 z - p.f2 z = (p.B * p.Ep z + p.A * p.Em z) / 2 := by
  rw [f3_eq hp, f2_eq, A_eq, B_eq]; ring

theorem f12 (z : ℝ) : p.f1 z + p.f2 z = (p.A * p.Ep z + p.B * p.Em z) / 2 := by
  rw [f1_eq hp, f2_eq, A_eq, B_eq]; ring

theorem f31_H : p.f3 p.H - p.f2 p.H = (p.B + p.A * p.e) * p.Ep p.H / 2 := by
  rw [f31 hp, ← Em_H]; ring

theorem f31_pos : 0 < p.f3 p.H - p.f2 p.H := by
  rw [f31_H hp]
  have := den_pos hp
  have : 0 < p.Ep p.H := exp_pos _
  positivity

omit hp in
theorem Ep_add (x y : ℝ) : p.Ep (x - y) = p.Ep x * p.Ep (-y) := by
  unfold Ep; rw [← exp_add]; congr 1; ring
omit hp in
theorem Em_add (x y : ℝ) : p.Em (x - y) = p.Em x * p.Em (-y) := by
  unfold Em; rw [← exp_add]; congr 1; ring

omit hp in
theorem outA_C : p.outA = p.C * (p.A + p.B * p.e) := by
  rw [C_def]; unfold outA e; ring

theorem base_outA : p.outA * (p.f3 p.H - p.f2 p.H) = p.f1 p.H + p.f2 p.H := by
  rw [f31_H hp, f12 hp, ← Em_H, outA_C]
  linear_combination (p.A + p.B * p.e) * p.Ep p.H / 2 * C_mul hp

theorem base_outEdge (u : ℝ) : p.outEdge u * (p.f3 p.H - p.f2 p.H) = p.F4 (p.H - u) + p.F5 (p.H - u) := by
  rw [f31_H hp, F4_eq hp, F5_eq hp, outEdge_eq, Ep_add, Em_add, ← Em_H, A_eq, B_eq]
  have h := C_mul hp
  rw [A_eq, B_eq] at h
  linear_combination p.s * p.Ep p.H * (p.Ep (-u) - p.e * p.Em (-u)) * h

theorem base_inDown (z : ℝ) : p.inDown z = p.f1 z + p.f2 z * p.outA := by
  have h := C_mul hp
  have q := quad hp
  rw [inDown_eq hp, f1_eq hp, f2_eq, outA_C]
  rw [A_eq, B_eq] at *
  obtain ⟨x, hx⟩ : ∃ x, x = p.Ep z := ⟨_, rfl⟩
  obtain ⟨y, hy⟩ : ∃ y, y = p.Em z := ⟨_, rfl⟩
  rw [← hx, ← hy]
  have k : (1 - (p.b + p.s)) * x + (1 + (p.b + p.s)) * y
      = p.C * ((1 + p.s) + (1 - p.s) * p.e) * ((1 - (p.b + p.s)) * x + (1 + (p.b + p.s)) * y) := by rw [h]; ring
  rw [k]
  linear_combination p.C * (x * (1 - p.e) / 2 - y * (1 - p.e) / 2) * q

theorem base_inUp (z : ℝ) : p.inUp z = -p.f2 z + p.f3 z * p.outA := by
  have h := C_mul hp
  have q := quad hp
  rw [inUp_eq hp, f3_eq hp, f2_eq, outA_C]
  rw [A_eq, B_eq] at *
  obtain ⟨x, hx⟩ : ∃ x, x = p.Ep z := ⟨_, rfl⟩
  obtain ⟨y, hy⟩ : ∃ y, y = p.Em z := ⟨_, rfl⟩
  rw [← hx, ← hy]
  have k : p.b * (x - y) / 2 = p.C * ((1 + p.s) + (1 - p.s) * p.e) * (p.b * (x - y) / 2) := by rw [h]; ring
  rw [k]
  linear_combination p.C * (x * (1 - p.e) / 2 - y * (1 - p.e) / 2) * q

theorem base_edgeDown (z u : ℝ) : -(p.C * p.edgeDown z u) = p.f2 z * p.outEdge u + p.F4 (max (z - u) 0) := by
  have h := C_mul hp
  have q := quad hp
  rcases le_total u z with hu | hu
  · rw [(edge_above hu).1, downP_eq hp, max_eq_left (by linarith), F4_eq hp, f2_eq, outEdge_eq, Ep_add, Em_add]
    unfold cpP cmP
    rw [A_eq, B_eq] at *
    obtain ⟨x, hx⟩ : ∃ x, x = p.Ep z := ⟨_, rfl⟩
    obtain ⟨y, hy⟩ : ∃ y, y = p.Em z := ⟨_, rfl⟩
    obtain ⟨v, hv⟩ : ∃ x, x = p.Ep (-u) := ⟨_, rfl⟩
    obtain ⟨w, hw⟩ : ∃ y, y = p.Em (-u) := ⟨_, rfl⟩
    rw [← hx, ← hy, ← hv, ← hw]
    linear_combination (-1 / 2 * ((1 - p.s) * (x * v) + (1 + p.s) * (y * w))) * h
      - p.C * (x - y) / 2 * (v - p.e * w) * q
  · rw [(edge_below hp hu).1, downM_eq hp, max_eq_right (by linarith), F4_eq hp, f2_eq, outEdge_eq]
    have e0 : p.Ep 0 = 1 := by unfold Ep; simp
    have e1 : p.Em 0 = 1 := by unfold Em; simp
    unfold cpM cmM
    rw [e0, e1]
    rw [A_eq, B_eq] at *
    obtain ⟨x, hx⟩ : ∃ x, x = p.Ep z := ⟨_, rfl⟩
    obtain ⟨y, hy⟩ : ∃ y, y = p.Em z := ⟨_, rfl⟩
    obtain ⟨v, hv⟩ : ∃ x, x = p.Ep (-u) := ⟨_, rfl⟩
    obtain ⟨w, hw⟩ : ∃ y, y = p.Em (-u) := ⟨_, rfl⟩
    rw [← hx, ← hy, ← hv, ← hw]
    linear_combination -h - p.C * (x - y) / 2 * (v - p.e * w) * q

theorem base_edgeUp (z u : ℝ) : -(p.C * p.edgeUp z u) = p.f3 z * p.outEdge u - p.F5 (max (z - u) 0) := by
  have h := C_mul hp
  have q := quad hp
  rcases le_total u z with hu | hu
  · rw [(edge_above hu).2, upP_eq hp, max_eq_left (by linarith), F5_eq hp, f3_eq hp, outEdge_eq, Ep_add, Em_add]
    unfold cpP cmP
    rw [A_eq, B_eq] at *
    obtain ⟨x, hx⟩ : ∃ x, x = p.Ep z := ⟨_, rfl⟩
    obtain ⟨y, hy⟩ : ∃ y, y = p.Em z := ⟨_, rfl⟩
    obtain ⟨v, hv⟩ : ∃ x, x = p.Ep (-u) := ⟨_, rfl⟩
    obtain ⟨w, hw⟩ : ∃ y, y = p.Em (-u) := ⟨_, rfl⟩
    rw [← hx, ← hy, ← hv, ← hw]
    linear_combination (-1 / 2 * ((1 + p.s) * (x * v) + (1 - p.s) * (y * w))) * h
      - p.C * (x - y) / 2 * (v - p.e * w) * q
  · rw [(edge_below hp hu).2, upM_eq hp, max_eq_right (by linarith), F5_eq hp, f3_eq hp, outEdge_eq]
    have e0 : p.Ep 0 = 1 := by unfold Ep; simp
    have e1 : p.Em 0 = 1 := by unfold Em; simp
    unfold cpM cmM
    rw [e0, e1]
    rw [A_eq, B_eq] at *
    obtain ⟨x, hx⟩ : ∃ x, x = p.Ep z := ⟨_, rfl⟩
    obtain ⟨y, hy⟩ : ∃ y, y = p.Em z := ⟨_, rfl⟩
    obtain ⟨v, hv⟩ : ∃ x, x = p.Ep (-u) := ⟨_, rfl⟩
    obtain ⟨w, hw⟩ : ∃ y, y = p.Em (-u) := ⟨_, rfl⟩
    rw [← hx, ← hy, ← hv, ← hw]
    linear_combination -h - p.C * (x - y) / 2 * (v - p.e * w) * q

end UPar

theorem solve_one {ι : Type*} (M : Matrix (Fin 1) (Fin 1) ℝ) (R : Matrix (Fin 1) ι ℝ) (h : M 0 0 ≠ 0) :
    Multi.solve M R = some (of fun _ j => R 0 j / M 0 0) := by
  have hd : IsUnit M.det := by rw [Matrix.det_fin_one]; exact h.isUnit
  unfold Multi.solve
  rw [if_pos hd]
  have hi : M⁻¹ = of fun _ _ => (M 0 0)⁻¹ := by
    apply Matrix.inv_eq_right_inv
    ext i j
    rw [Subsingleton.elim i 0, Subsingleton.elim j 0]
    simp [Matrix.mul_apply, h]
  rw [hi]
  congr 1
  ext i j
  simp [Matrix.mul_apply]
  ring

namespace UTube

variable {t : UTube} {zu : ℕ → ℝ} {m cp : ℝ} {k : ℕ}

/-- The matrix of the linear system for the upward flow. -/
def upMat (t : UTube) (m cp : ℝ) : ℝ :=
  if t.isReversed m then (t.par m cp).f3 t.H - (t.par m cp).f2 t.H else (t.par m cp).f2 t.H - (t.par m cp).f3 t.H

theorem base_M : (Multi.ImI 1 * (t.base zu m cp k).f0 (t.base zu m cp k).H * (t.base zu m cp k).B) 0 0 = t.upMat m cp := by
  unfold Multi.Bore.B base conn upMat
  dsimp only
  rw [Matrix.mul_zero, add_zero]
  cases h : t.isReversed m <;>
    simp [Matrix.mul_apply, Fintype.sum_sum_type, Multi.ImI, Multi.dirUp, genF0, h] <;> ring

theorem base_upSolve (h : t.upMat m cp ≠ 0) :
    (t.base zu m cp k).upSolve = some (of fun _ j => (-Multi.ImI 1) 0 j / t.upMat m cp) := by
  unfold Multi.Bore.upSolve
  rw [solve_one _ _ (by rw [base_M]; exact h), base_M]

variable (hv : t.Valid) (hm : m ≠ 0) (hc : 0 < cp) (hz : Edges zu k t.H)

include hv hm hc in
theorem upMat_ne : t.upMat m cp ≠ 0 := by
  have := UPar.f31_pos (par_passive hv hm hc)
  have e : (t.par m cp).H = t.H := rfl
  rw [e] at this
  unfold upMat
  cases t.isReversed m
  · simp only [Bool.false_eq_true, if_false]; intro h; linarith
  · simp only [if_true]; intro h; linarith

include hv hm hc hz in
/-- **C160.** The general method of the base class gives the coefficients of the outlet temperature of the
explicit formula. -/
theorem base_outlet : (t.base zu m cp k).outletCoef =
    some (of fun _ _ => (t.par m cp).outA, of fun _ (u : Fin k) => (t.par m cp).outB zu u) := by
  have hp := par_passive hv hm hc
  have hu := upMat_ne hv hm hc
  have h0 := UPar.base_outA hp
  have hE := UPar.base_outEdge hp
  have e : (t.par m cp).H = t.H := rfl
  rw [e] at h0 hE
  have hle : ∀ u ≤ k, 0 ≤ t.H - zu u := fun u hu => by have := hz.mono u k hu le_rfl; rw [hz.last] at this; linarith
  unfold Multi.Bore.outletCoef
  rw [base_upSolve hu, Option.map_some]
  unfold upMat at hu ⊢
  congr 1
  refine Prod.ext ?_ ?_
  · ext i j
    cases h : t.isReversed m <;>
    · rw [h] at hu
      simp only [Bool.false_eq_true, if_false, if_true] at hu
      simp [Matrix.mul_apply, Fintype.sum_sum_type, Multi.ImI, base, conn, Multi.dirDown, genF0, h]
      field_simp
      first
        | linear_combination h0
        | linear_combination -h0
  · ext i u
    have e0 := hle u u.2.le
    have e1 := hle (u + 1) u.2
    have k0 := hE (zu u)
    have k1 := hE (zu (u + 1))
    cases h : t.isReversed m <;>
    · rw [h] at hu
      simp only [Bool.false_eq_true, if_false, if_true] at hu
      simp [Matrix.mul_apply, Fintype.sum_sum_type, Multi.ImI, base, conn, genB, leg, iInlet, h, max_eq_left e0, max_eq_left e1, UPar.outB]
      field_simp
      first
        | linear_combination k0 - k1
        | linear_combination k1 - k0

include hv hm hc hz in
/-- **C160.** The same for the fluid temperatures in both pipes at any depth. -/
theorem base_temp (z : ℝ) : (t.base zu m cp k).tempCoef z =
    some (of fun i _ => t.tempA m cp z (leg i), of fun i (u : Fin k) => t.tempB zu m cp z (leg i) u) := by
  have hp := par_passive hv hm hc
  have hu := upMat_ne hv hm hc
  have h0 := UPar.base_outA hp
  have hE := UPar.base_outEdge hp
  have e : (t.par m cp).H = t.H := rfl
  rw [e] at h0 hE
  have hle : ∀ u ≤ k, 0 ≤ t.H - zu u := fun u hu => by have := hz.mono u k hu le_rfl; rw [hz.last] at this; linarith
  have hD := UPar.base_inDown hp z
  have hU := UPar.base_inUp hp z
  unfold Multi.Bore.tempCoef
  rw [base_upSolve hu, Option.map_some]
  unfold upMat at hu ⊢
  congr 1
  refine Prod.ext ?_ ?_
  · ext i j
    cases h : t.isReversed m <;>
    · rw [h] at hu
      simp only [Bool.false_eq_true, if_false, if_true] at hu
      rcases i with i | i <;>
      · simp [Matrix.mul_apply, Matrix.add_apply, Fintype.sum_sum_type, Multi.ImI, Multi.Bore.B, base, conn, Multi.dirDown, Multi.dirUp, genF0, h, tempA, leg, iInlet, hD, hU, Matrix.one_apply, Subsingleton.elim i 0]
        field_simp
        first
          | (left; linear_combination h0)
          | linear_combination -(t.par m cp).f2 z * h0
          | linear_combination (t.par m cp).f2 z * h0
          | linear_combination -(t.par m cp).f3 z * h0
  · ext i u
    have e0 := hle u u.2.le
    have e1 := hle (u + 1) u.2
    have k0 := hE (zu u)
    have k1 := hE (zu (u + 1))
    have d0 := UPar.base_edgeDown hp z (zu u)
    have d1 := UPar.base_edgeDown hp z (zu (u + 1))
    have c0 := UPar.base_edgeUp hp z (zu u)
    have c1 := UPar.base_edgeUp hp z (zu (u + 1))
    have wD : (t.par m cp).wallDown zu z u = (t.par m cp).f2 z * ((t.par m cp).outEdge (zu u) - (t.par m cp).outEdge (zu (u + 1)))
        + ((t.par m cp).F4 (max (z - zu u) 0) - (t.par m cp).F4 (max (z - zu (u + 1)) 0)) := by
      unfold UPar.wallDown; linear_combination d0 - d1
    have wU : (t.par m cp).wallUp zu z u = (t.par m cp).f3 z * ((t.par m cp).outEdge (zu u) - (t.par m cp).outEdge (zu (u + 1)))
        - ((t.par m cp).F5 (max (z - zu u) 0) - (t.par m cp).F5 (max (z - zu (u + 1)) 0)) := by
      unfold UPar.wallUp; linear_combination c0 - c1
    cases h : t.isReversed m <;>
    · rw [h] at hu
      simp only [Bool.false_eq_true, if_false, if_true] at hu
      rcases i with i | i <;>
      · simp [Matrix.mul_apply, Fintype.sum_sum_type, Multi.ImI, Multi.Bore.B, base, conn, Multi.dirUp, genF0, genB, leg, iInlet, h, tempB, max_eq_left e0, max_eq_left e1, wD, wU]
        field_simp
        first
          | linear_combination (t.par m cp).f2 z * (k0 - k1)
          | linear_combination (t.par m cp).f2 z * (k1 - k0)
          | linear_combination (t.par m cp).f3 z * (k0 - k1)
          | linear_combination (t.par m cp).f3 z * (k1 - k0)

include hv hm hc hz in
/-- **C160.** The same for the heat extraction rate of each segment. -/
theorem base_heat (v : ℕ) : (t.base zu m cp k).heatCoef zu v =
    some (fun _ => t.heatA zu m cp v, fun u : Fin k => t.heatB zu m cp v u) := by
  unfold Multi.Bore.heatCoef
  rw [base_temp hv hm hc hz, base_temp hv hm hc hz, Option.bind_some, Option.map_some]
  refine congrArg some (Prod.ext ?_ ?_)
  · funext i
    simp only [Matrix.vecMul, dotProduct, Fintype.sum_sum_type, Fin.sum_univ_one, Fin.sum_univ_two, heatA]
    rfl
  · funext u
    simp only [Matrix.vecMul, dotProduct, Fintype.sum_sum_type, Fin.sum_univ_one, Fin.sum_univ_two, heatB]
    rfl

end UTube

namespace UPar
variable {p : UPar} (hp : p.Passive)
include hp

omit hp in
theorem hasDeriv_modes (a c z : ℝ) : HasDerivAt (fun z => (a * p.Ep z + c * p.Em z) / 2)
    ((a * (p.beta + p.gamma) * p.Ep z + c * (p.beta - p.gamma) * p.Em z) / 2) z := by
  have h1 : HasDerivAt p.Ep (p.Ep z * (p.beta + p.gamma)) z := by
    have := ((hasDerivAt_id z).const_mul (p.beta + p.gamma)).exp
    have e : p.Ep = fun x => exp ((p.beta + p.gamma) * x) := rfl
    rw [e]; simpa using this
  have h2 : HasDerivAt p.Em (p.Em z * (p.beta - p.gamma)) z := by
    have := ((hasDerivAt_id z).const_mul (p.beta - p.gamma)).exp
    have e : p.Em = fun x => exp ((p.beta - p.gamma) * x) := rfl
    rw [e]; simpa using this
  exact (((h1.const_mul a).add (h2.const_mul c)).div_const 2).congr_deriv (by ring)

/-- **C160.** `_F4` is a primitive of `_f4`, as documented. -/
theorem F4_primitive (z : ℝ) : HasDerivAt p.F4 (p.f4 z) z := by
  have e : p.F4 = fun z => (-p.A * p.Ep z + -p.B * p.Em z) / 2 := by
    funext z; rw [F4_eq hp]; ring
  rw [e]
  refine (hasDeriv_modes _ _ z).congr_deriv ?_
  have hA := A4_eq hp
  have hB := B4_eq hp
  unfold A4 at hA
  unfold B4 at hB
  rw [div_eq_iff (sum_pos hp).ne'] at hA
  rw [div_eq_iff (diff_neg hp).ne] at hB
  unfold f4
  obtain ⟨x, hx⟩ : ∃ x, x = p.b2 * p.b12 / p.gamma := ⟨_, rfl⟩
  rw [← hx] at hA hB ⊢
  linear_combination -p.b1 * exp_cosh z + (p.delta * p.b1 + x) * exp_sinh z - p.Ep z / 2 * hA - p.Em z / 2 * hB

/-- **C160.** `_F5` is a primitive of `_f5`, as documented. -/
theorem F5_primitive (z : ℝ) : HasDerivAt p.F5 (p.f5 z) z := by
  have e : p.F5 = fun z => (p.B * p.Ep z + p.A * p.Em z) / 2 := by
    funext z; rw [F5_eq hp]
  rw [e]
  refine (hasDeriv_modes _ _ z).congr_deriv ?_
  have hA := A5_eq hp
  have hB := B5_eq hp
  unfold A5 at hA
  unfold B5 at hB
  rw [div_eq_iff (sum_pos hp).ne'] at hA
  rw [div_eq_iff (diff_neg hp).ne] at hB
  unfold f5
  obtain ⟨x, hx⟩ : ∃ x, x = p.b1 * p.b12 / p.gamma := ⟨_, rfl⟩
  rw [← hx] at hA hB ⊢
  linear_combination -p.b2 * exp_cosh z - (p.delta * p.b2 + x) * exp_sinh z - p.Ep z / 2 * hA - p.Em z / 2 * hB

end UPar

/-- Non-vacuity: a reversed flow in a U-tube with two segments, and a coaxial borehole. -/
example : (UTube.sample true).isReversed (-3) = true ∧
    ((UTube.sample true).base (fun k => 50 * (k : ℝ)) (-3) 4 2).outletCoef.isSome := by
  refine ⟨by norm_num [UTube.isReversed, UTube.sample, singleUTube], ?_⟩
  rw [UTube.base_outlet (UTube.sample_valid true) (by norm_num) (by norm_num)
    ⟨by norm_num, by norm_num, by norm_num [UTube.sample, singleUTube], fun i j hij _ => by
      have : (i : ℝ) ≤ j := by exact_mod_cast hij
      linarith⟩]
  rfl

example : ((coaxial 1 1 1 100 true).base (fun k => 50 * (k : ℝ)) 3 4 2).outletCoef.isSome := by
  rw [UTube.base_outlet (UTube.coaxial_valid 1 true (by norm_num) (by norm_num) (by norm_num)) (by norm_num) (by norm_num)
    ⟨by norm_num, by norm_num, by norm_num [coaxial], fun i j hij _ => by
      have : (i : ℝ) ≤ j := by exact_mod_cast hij
      linarith⟩]
  rfl

end Verif.Pipe
