import Verif.Tac
import Verif.Pipe.MultiOneProps

/-!
# Examples for the boreholes with several U-tubes
-/

noncomputable section

namespace Verif.Pipe.Multi

open Matrix

/-- Balance of two U-tubes in series with reversed flow. -/
example : ∃ (e : Eig 2) (q : Fin 2 → ℝ) (Tout Qf : ℝ),
    (∀ v : Fin 2, (mkBore 2 (multiple .series 2 true (-3) 4) (sampleRd 2) e (fun j => 50 * (j : ℝ)) 100).segmentHeat (fun j => 50 * (j : ℝ)) (fun _ => 5) ![10, 12] v = some (q v)) ∧
    (mkBore 2 (multiple .series 2 true (-3) 4) (sampleRd 2) e (fun j => 50 * (j : ℝ)) 100).outletT (fun _ => 5) ![10, 12] = some (fun _ => Tout) ∧
    ∑ v, q v = Qf ∧ Qf = |(-3 : ℝ)| * 4 * (Tout - 5) := by
  obtain ⟨e, he⟩ := eig_exists (sample_circuit 2) (multiple .series 2 true (-3) 4).mcp
  obtain ⟨q, T, Tout, Qf, h1, -, h3, -, h5, h6, -⟩ := multiple_energy_balance (sample_circuit 2) ⟨by norm_num, by norm_num, by norm_num, Or.inr rfl⟩ he (by norm_num) sample_edges 5 ![10, 12]
  exact ⟨e, q, Tout, Qf, h1, h3, h5, h6⟩

/-- Equilibrium of the same borehole. -/
example : ∃ e : Eig 2, (mkBore 2 (multiple .series 2 true (-3) 4) (sampleRd 2) e (fun j => 50 * (j : ℝ)) 100).outletT (fun _ => 7) (fun _ => 7) = some fun _ => 7 := by
  obtain ⟨e, he⟩ := eig_exists (sample_circuit 2) (multiple .series 2 true (-3) 4).mcp
  exact ⟨e, (multiple_equilibrium (sample_circuit 2) ⟨by norm_num, by norm_num, by norm_num, Or.inr rfl⟩ he (by norm_num) sample_edges 7).2⟩

/-- Thermal resistances of one U-tube. -/
def oneRd : Matrix (P 1) (P 1) ℝ := fun i j => if i = j then 1 else 1 / 4

theorem one_circuit : Circuit oneRd := by
  constructor
  · intro i j; unfold oneRd; split_ifs <;> norm_num
  · ext i j
    rw [Matrix.transpose_apply]
    unfold oneRd
    simp only [eq_comm]

/-- Eigenvalues and eigenvectors of one U-tube with a negative flow rate. -/
def oneEig : Eig 1 where
  L := Sum.elim (fun _ => 3) (fun _ => -3)
  V := fun i j => if i = j then 2 else 1
  Vm1 := fun i j => if i = j then 2 / 3 else -1 / 3

theorem oneEig_of : oneEig.Of (odeA oneRd (multiple .parallel 1 false (-1) 1).mcp) := by
  have hsign : Real.sign (-1) = -1 := Real.sign_of_neg (by norm_num)
  have herase : ∀ i : P 1, Finset.univ.erase i = {Sum.swap i} := by decide
  constructor
  · ext i j
    rw [Matrix.mul_apply, Matrix.mul_apply]
    rcases i with i | i <;> rcases j with j | j <;>
      simp [oneEig, odeA, oneRd, herase, hsign, multiple, mFlowPipe, pipeFlow, Fin.eq_zero i, Fin.eq_zero j, Matrix.diagonal] <;> norm_num
  · ext i j
    rw [Matrix.mul_apply]
    rcases i with i | i <;> rcases j with j | j <;>
      simp [oneEig, Fin.eq_zero i, Fin.eq_zero j, Matrix.one_apply] <;> norm_num

/-- The system of the borehole with a negative flow rate and `reversible_flow=False` can be solved, and the heats have opposite signs. -/
theorem one_irreversible (Tin : ℝ) (Tb : Fin 2 → ℝ) : ∃ (q : Fin 2 → ℝ) (Qf : ℝ),
    (∀ v : Fin 2, (mkBore 2 (multiple .parallel 1 false (-1) 1) oneRd oneEig (fun j => 50 * (j : ℝ)) 100).segmentHeat (fun j => 50 * (j : ℝ)) (fun _ => Tin) Tb v = some (q v)) ∧
    (mkBore 2 (multiple .parallel 1 false (-1) 1) oneRd oneEig (fun j => 50 * (j : ℝ)) 100).fluidHeat (fun _ => Tin) Tb = some (fun _ => Qf) ∧ ∑ v, q v = -Qf := by
  obtain ⟨S, hS⟩ : ∃ S, (mkBore 2 (multiple .parallel 1 false (-1) 1) oneRd oneEig (fun j => 50 * (j : ℝ)) 100).upSolve = some S := by
    unfold Bore.upSolve solve
    refine ⟨_, if_pos ?_⟩
    rw [Matrix.det_fin_one, isUnit_iff_ne_zero]
    have h1 : (Complex.exp 300).re = Real.exp 300 := by rw [← Complex.ofReal_ofNat, ← Complex.ofReal_exp, Complex.ofReal_re]
    have h2 : (Complex.exp (-300)).re = Real.exp (-300) := by rw [← Complex.ofReal_ofNat, ← Complex.ofReal_neg, ← Complex.ofReal_exp, Complex.ofReal_re]
    have h3 := Real.exp_pos 300
    have h4 := Real.exp_pos (-300)
    simp [Matrix.mul_apply, ImI, Bore.B, mkBore, genF0, oneEig, multiple, dirUp, dirDown, headUp, reversed, Matrix.fromCols]
    intro h
    linarith
  exact multiple_irreversible_partial one_circuit sample_edges .parallel (by norm_num) (by norm_num) (by norm_num) oneEig_of hS Tin Tb

end Verif.Pipe.Multi
