import Verif.Pipe.UTubeHeatProps

/-!
# A single U-tube with all lengths and conductances scaled

Lengths are multiplied by `c`, conductances per unit length by `κ`, and the flow rate by `κ c`.
-/

noncomputable section

namespace Verif.Net

/-- Specification: the heat extraction rates of `p'` at the flow rate `g m` are `g` times those of `p` at the flow rate `m`, with the same outlet temperatures. -/
structure Pipe.Scaled (g : ℝ) {k : ℕ} (p p' : Pipe k) : Prop where
  outA : ∀ m cp, p'.outA (g * m) cp = p.outA m cp
  outB : ∀ m cp s, p'.outB (g * m) cp s = p.outB m cp s
  heatA : ∀ m cp s, p'.heatA (g * m) cp s = g * p.heatA m cp s
  heatB : ∀ m cp s u, p'.heatB (g * m) cp s u = g * p.heatB m cp s u

end Verif.Net

namespace Verif.Pipe

open Real

namespace UPar

/-- Lengths multiplied by `c`. -/
def scale (c : ℝ) (p : UPar) : UPar := ⟨p.b1 / c, p.b2 / c, p.b12 / c, c * p.H⟩

variable {c : ℝ} (hc : 0 < c) (p : UPar)
include hc

omit hc in
theorem beta_scale : (p.scale c).beta = p.beta / c := by unfold beta scale; ring

theorem gamma_scale : (p.scale c).gamma = p.gamma / c := by
  unfold gamma scale
  have : 1 / 4 * (p.b1 / c + p.b2 / c) ^ 2 + p.b12 / c * (p.b1 / c + p.b2 / c) = (1 / 4 * (p.b1 + p.b2) ^ 2 + p.b12 * (p.b1 + p.b2)) / c ^ 2 := by field_simp
  dsimp only
  rw [this, Real.sqrt_div' _ (sq_nonneg c), Real.sqrt_sq hc.le]

theorem cancel (x y : ℝ) : x / c / (y / c) = x / y := div_div_div_cancel_right₀ hc.ne' x y

theorem delta_scale : (p.scale c).delta = p.delta := by
  unfold delta
  rw [gamma_scale hc]
  have : (p.scale c).b12 + 1 / 2 * ((p.scale c).b1 + (p.scale c).b2) = (p.b12 + 1 / 2 * (p.b1 + p.b2)) / c := by unfold scale; ring
  rw [this, mul_comm (1 / _), mul_one_div, cancel hc, mul_comm (1 / p.gamma), mul_one_div]

theorem sum_scale : 1 / 2 * ((p.scale c).b1 + (p.scale c).b2) / (p.scale c).gamma = 1 / 2 * (p.b1 + p.b2) / p.gamma := by
  rw [gamma_scale hc, show 1 / 2 * ((p.scale c).b1 + (p.scale c).b2) = (1 / 2 * (p.b1 + p.b2)) / c by unfold scale; ring, cancel hc]

theorem total_scale : ((p.scale c).b1 + (p.scale c).b2) / (p.scale c).gamma = (p.b1 + p.b2) / p.gamma := by
  rw [gamma_scale hc, show (p.scale c).b1 + (p.scale c).b2 = (p.b1 + p.b2) / c by unfold scale; ring, cancel hc]

theorem short_scale : (p.scale c).b12 / (p.scale c).gamma = p.b12 / p.gamma := by
  rw [gamma_scale hc, show (p.scale c).b12 = p.b12 / c from rfl, cancel hc]

theorem A_scale : (p.scale c).A = p.A := by unfold A; rw [sum_scale hc]
theorem B_scale : (p.scale c).B = p.B := by unfold B; rw [sum_scale hc]

theorem exp_scale (x y : ℝ) : x / c * (c * y) = x * y := by field_simp

theorem twice_scale : -2 * (p.scale c).gamma * (p.scale c).H = -2 * p.gamma * p.H := by
  rw [gamma_scale hc, show (p.scale c).H = c * p.H from rfl, mul_assoc, exp_scale hc, mul_assoc]

theorem twice_scale' : 2 * (p.scale c).gamma * (p.scale c).H = 2 * p.gamma * p.H := by
  rw [gamma_scale hc, show (p.scale c).H = c * p.H from rfl, mul_assoc, exp_scale hc, mul_assoc]

theorem plus_scale (z : ℝ) : ((p.scale c).beta + (p.scale c).gamma) * (c * z) = (p.beta + p.gamma) * z := by
  rw [gamma_scale hc, beta_scale, ← add_div, exp_scale hc]

theorem minus_scale (z : ℝ) : ((p.scale c).beta - (p.scale c).gamma) * (c * z) = (p.beta - p.gamma) * z := by
  rw [gamma_scale hc, beta_scale, ← sub_div, exp_scale hc]

theorem C_scale : (p.scale c).C = p.C := by unfold C; rw [A_scale hc, B_scale hc, twice_scale hc]

theorem outA_scale : (p.scale c).outA = p.outA := by unfold outA; rw [A_scale hc, B_scale hc, twice_scale hc]

theorem outB_scale (zu : ℕ → ℝ) (u : ℕ) : (p.scale c).outB (fun k => c * zu k) u = p.outB zu u := by
  have e : ∀ z, (p.scale c).outEdge (c * z) = p.outEdge z := fun z => by
    unfold outEdge
    rw [total_scale hc, C_scale hc, twice_scale' hc, neg_mul, neg_mul, mul_comm (c * z), mul_comm (c * z), plus_scale hc, minus_scale hc, neg_mul, neg_mul, mul_comm z, mul_comm z]
  unfold outB
  rw [e, e]

theorem inDown_scale (z : ℝ) : (p.scale c).inDown (c * z) = p.inDown z := by
  unfold inDown
  rw [C_scale hc, A_scale hc, B_scale hc, delta_scale hc, short_scale hc, plus_scale hc, minus_scale hc, twice_scale' hc]

theorem inUp_scale (z : ℝ) : (p.scale c).inUp (c * z) = p.inUp z := by
  unfold inUp
  rw [C_scale hc, A_scale hc, B_scale hc, delta_scale hc, short_scale hc, plus_scale hc, minus_scale hc, twice_scale' hc]

theorem A4_scale : (p.scale c).A4 = p.A4 := by
  unfold A4
  rw [delta_scale hc, gamma_scale hc, beta_scale, ← add_div, ← cancel hc (p.b1 - p.delta * p.b1 - p.b2 * p.b12 / p.gamma)]
  congr 1
  unfold scale
  by_cases hg : p.gamma = 0
  · simp only [hg, zero_div, div_zero]; ring
  · field_simp

theorem B4_scale : (p.scale c).B4 = p.B4 := by
  unfold B4
  rw [delta_scale hc, gamma_scale hc, beta_scale, ← sub_div, ← cancel hc (p.b1 + p.delta * p.b1 + p.b2 * p.b12 / p.gamma)]
  congr 1
  unfold scale
  by_cases hg : p.gamma = 0
  · simp only [hg, zero_div, div_zero]; ring
  · field_simp

theorem A5_scale : (p.scale c).A5 = p.A5 := by
  unfold A5
  rw [delta_scale hc, gamma_scale hc, beta_scale, ← add_div, ← cancel hc (p.b2 + p.delta * p.b2 + p.b1 * p.b12 / p.gamma)]
  congr 1
  unfold scale
  by_cases hg : p.gamma = 0
  · simp only [hg, zero_div, div_zero]; ring
  · field_simp

theorem B5_scale : (p.scale c).B5 = p.B5 := by
  unfold B5
  rw [delta_scale hc, gamma_scale hc, beta_scale, ← sub_div, ← cancel hc (p.b2 - p.delta * p.b2 - p.b1 * p.b12 / p.gamma)]
  congr 1
  unfold scale
  by_cases hg : p.gamma = 0
  · simp only [hg, zero_div, div_zero]; ring
  · field_simp

theorem a04_scale : (p.scale c).a04 = p.a04 := by
  unfold a04
  rw [short_scale hc, mul_div_assoc, total_scale hc, mul_div_assoc]

theorem a05_scale : (p.scale c).a05 = p.a05 := by
  unfold a05
  rw [neg_div, short_scale hc, mul_div_assoc, total_scale hc, mul_div_assoc, neg_div]

theorem a14_scale : (p.scale c).a14 = p.a14 := by
  unfold a14
  rw [delta_scale hc, mul_div_assoc, total_scale hc, mul_div_assoc]

theorem a15_scale : (p.scale c).a15 = p.a15 := by
  unfold a15
  rw [delta_scale hc, mul_div_assoc, total_scale hc, mul_div_assoc]

theorem edgeDown_scale (z u : ℝ) : (p.scale c).edgeDown (c * z) (c * u) = p.edgeDown z u := by
  unfold edgeDown downP downM a00 a01 a02 a03
  rw [← mul_sub, a04_scale hc, a05_scale hc, A4_scale hc, B4_scale hc, A_scale hc, B_scale hc, plus_scale hc, minus_scale hc, minus_scale hc, plus_scale hc, plus_scale hc, minus_scale hc,
    twice_scale hc, twice_scale' hc]
  have : c * (z - u) ≥ 0 ↔ z - u ≥ 0 := by constructor <;> intro h <;> [exact nonneg_of_mul_nonneg_right h hc; exact mul_nonneg hc.le h]
  simp only [this]

theorem edgeUp_scale (z u : ℝ) : (p.scale c).edgeUp (c * z) (c * u) = p.edgeUp z u := by
  unfold edgeUp upP upM a10 a11 a12 a13
  rw [← mul_sub, a14_scale hc, a15_scale hc, A5_scale hc, B5_scale hc, A_scale hc, B_scale hc, plus_scale hc, minus_scale hc, minus_scale hc, plus_scale hc, plus_scale hc, minus_scale hc,
    twice_scale hc, twice_scale' hc]
  have : c * (z - u) ≥ 0 ↔ z - u ≥ 0 := by constructor <;> intro h <;> [exact nonneg_of_mul_nonneg_right h hc; exact mul_nonneg hc.le h]
  simp only [this]

theorem wallDown_scale (zu : ℕ → ℝ) (z : ℝ) (u : ℕ) : (p.scale c).wallDown (fun k => c * zu k) (c * z) u = p.wallDown zu z u := by
  unfold wallDown; rw [C_scale hc, edgeDown_scale hc, edgeDown_scale hc]

theorem wallUp_scale (zu : ℕ → ℝ) (z : ℝ) (u : ℕ) : (p.scale c).wallUp (fun k => c * zu k) (c * z) u = p.wallUp zu z u := by
  unfold wallUp; rw [C_scale hc, edgeUp_scale hc, edgeUp_scale hc]

end UPar

namespace UTube

/-- Lengths multiplied by `c`, conductances per unit length by `κ`. -/
def scale (c κ : ℝ) (t : UTube) : UTube := ⟨fun i j => κ * t.G i j, c * t.H, t.reversible⟩

variable {c κ : ℝ} (hc : 0 < c) (hκ : 0 < κ) (t : UTube)
include hc hκ

theorem isReversed_scale (m : ℝ) : (t.scale c κ).isReversed (κ * c * m) = t.isReversed m := by
  unfold isReversed
  have : κ * c * m < 0 ↔ m < 0 := by
    constructor <;> intro h
    · by_contra h'
      exact absurd h (not_lt.mpr (mul_nonneg (mul_pos hκ hc).le (not_lt.mp h')))
    · exact mul_neg_of_pos_of_neg (mul_pos hκ hc) h
  simp only [this]
  rfl

theorem par_scale (m cp : ℝ) : (t.scale c κ).par (κ * c * m) cp = (t.par m cp).scale c := by
  have e : ∀ x : ℝ, κ * x / (|κ * c * m| * cp) = x / (|m| * cp) / c := fun x => by
    rw [abs_mul, abs_of_pos (mul_pos hκ hc), div_div, show κ * c * |m| * cp = κ * (|m| * cp * c) by ring, mul_div_mul_left _ _ hκ.ne']
  unfold par UPar.scale iInlet iOutlet
  rw [isReversed_scale hc hκ]
  simp only [scale, e]

/-- **C126** (single U-tube).  The outlet temperature does not change and the heat extraction rates are multiplied by `κ c`. -/
theorem netPipe_scaled (zu : ℕ → ℝ) (k : ℕ) : (t.netPipe zu k).Scaled (κ * c) ((t.scale c κ).netPipe (fun j => c * zu j) k) := by
  have e1 : ∀ m, (t.scale c κ).iInlet (κ * c * m) = t.iInlet m := fun m => by unfold iInlet; rw [isReversed_scale hc hκ]
  have e2 : ∀ m i, mFlowPipe (κ * c * m) i = κ * c * mFlowPipe m i := fun m i => by unfold mFlowPipe; split_ifs <;> ring
  have e3 : ∀ m cp z i, (t.scale c κ).tempA (κ * c * m) cp (c * z) i = t.tempA m cp z i := fun m cp z i => by
    unfold tempA; rw [e1, par_scale hc hκ, UPar.inDown_scale hc, UPar.inUp_scale hc]
  have e4 : ∀ m cp z i u, (t.scale c κ).tempB (fun j => c * zu j) (κ * c * m) cp (c * z) i u = t.tempB zu m cp z i u := fun m cp z i u => by
    unfold tempB; rw [e1, par_scale hc hκ, UPar.wallDown_scale hc, UPar.wallUp_scale hc]
  refine ⟨fun m cp => ?_, fun m cp s => ?_, fun m cp s => ?_, fun m cp s u => ?_⟩
  · show ((t.scale c κ).par (κ * c * m) cp).outA = _
    rw [par_scale hc hκ, UPar.outA_scale hc]; rfl
  · show ((t.scale c κ).par (κ * c * m) cp).outB (fun j => c * zu j) s = _
    rw [par_scale hc hκ, UPar.outB_scale hc]; rfl
  · show (t.scale c κ).heatA (fun j => c * zu j) (κ * c * m) cp s = κ * c * t.heatA zu m cp s
    unfold heatA
    rw [Finset.mul_sum]
    refine Finset.sum_congr rfl fun i _ => ?_
    rw [e2, e3, e3]; ring
  · show (t.scale c κ).heatB (fun j => c * zu j) (κ * c * m) cp s u = κ * c * t.heatB zu m cp s u
    unfold heatB
    rw [Finset.mul_sum]
    refine Finset.sum_congr rfl fun i _ => ?_
    rw [e2, e4, e4]; ring

end UTube

end Verif.Pipe
