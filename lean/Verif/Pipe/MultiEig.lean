import Verif.Pipe.MultiProps
import Mathlib.Analysis.Matrix.Order

/-!
# The matrix of the borehole model is diagonalisable

Existence of the eigenvalue decomposition assumed as contract of `np.linalg.eig` and `np.linalg.inv`; shows that the hypotheses of the
theorems on several U-tubes can be met for every physical circuit.
-/

noncomputable section

namespace Verif.Pipe.Multi

open Matrix Set
open scoped MatrixOrder

variable {n k : ℕ}

theorem odeA_scale (Rd : Matrix (P n) (P n) ℝ) (mcp : P n → ℝ) :
    odeA Rd mcp = diagonal (fun i => 1 / mcp i) * odeA Rd fun _ => 1 := by
  ext i j
  rw [Matrix.diagonal_mul]
  unfold odeA
  split_ifs
  · rw [mul_sub, Finset.mul_sum]
    congr 1
    · rw [mul_one, mul_neg, one_div_mul_one_div, mul_comm]
    · exact Finset.sum_congr rfl fun k _ => by rw [mul_one, one_div_mul_one_div, mul_comm]
  · rw [mul_one, one_div_mul_one_div, mul_comm]

theorem neg_odeA_posDef {Rd : Matrix (P n) (P n) ℝ} (hR : Circuit Rd) : (-odeA Rd fun _ => 1).PosDef := by
  apply Matrix.PosDef.of_dotProduct_mulVec_pos
  · ext i j
    rw [Matrix.conjTranspose_apply, star_trivial, Matrix.neg_apply, Matrix.neg_apply]
    congr 1
    by_cases h : i = j
    · rw [h]
    · unfold odeA
      rw [if_neg h, if_neg (Ne.symm h), hR.symm.apply]
  · intro x hx
    have h1 : star x ⬝ᵥ ((-odeA Rd fun _ => 1) *ᵥ x) = (∑ i, x i ^ 2 / Rd i i) + 1 / 2 * ∑ i, ∑ j, (x j - x i) ^ 2 / Rd i j := by
      have h2 := flux_dissipation Rd hR.symm x
      have h3 : star x ⬝ᵥ ((-odeA Rd fun _ => 1) *ᵥ x) = -∑ i, x i * pipeFlux Rd x 0 i := by
        rw [star_trivial, Matrix.neg_mulVec, dotProduct_neg]
        congr 1
        refine Finset.sum_congr rfl fun i _ => ?_
        have := odeA_flux Rd (fun _ => 1) x 0 i
        rw [mul_zero, sub_zero, div_one] at this
        rw [this]
      rw [h3, h2]; ring
    rw [h1]
    have h4 := (dissipation_nonneg Rd hR.pos x).2
    have h5 : 0 < ∑ i, x i ^ 2 / Rd i i := by
      obtain ⟨i, hi⟩ : ∃ i, x i ≠ 0 := by
        by_contra hc
        push Not at hc
        exact hx (funext hc)
      exact Finset.sum_pos' (fun j _ => div_nonneg (sq_nonneg _) (hR.pos j j).le)
        ⟨i, Finset.mem_univ _, div_pos (by positivity) (hR.pos i i)⟩
    linarith

/-- For every physical circuit and all flow rates the decomposition asked from `np.linalg.eig` and `np.linalg.inv` exists. -/
theorem eig_exists {Rd : Matrix (P n) (P n) ℝ} (hR : Circuit Rd) (mcp : P n → ℝ) : ∃ e : Eig n, e.Of (odeA Rd mcp) := by
  have hS := neg_odeA_posDef hR
  obtain ⟨B, hB⟩ := CStarAlgebra.nonneg_iff_eq_star_mul_self.mp hS.posSemidef.nonneg
  have hdet : IsUnit B.det := by
    have h1 := hS.det_pos.ne'
    rw [hB, Matrix.det_mul] at h1
    exact isUnit_iff_ne_zero.mpr (right_ne_zero_of_mul h1)
  obtain ⟨D, hD⟩ : ∃ D : Matrix (P n) (P n) ℝ, D = diagonal (fun i => 1 / mcp i) := ⟨_, rfl⟩
  have hA : odeA Rd mcp = -(D * (star B * B)) := by
    rw [odeA_scale, ← hD, ← hB, mul_neg, neg_neg]
  have hM : (-(B * D * star B)).IsHermitian := by
    rw [Matrix.IsHermitian, conjTranspose_neg, conjTranspose_mul, conjTranspose_mul, star_eq_conjTranspose, conjTranspose_conjTranspose,
      hD, Matrix.diagonal_conjTranspose, mul_assoc]
    rfl
  obtain ⟨U, hU⟩ : ∃ U : Matrix (P n) (P n) ℝ, U = hM.eigenvectorUnitary := ⟨_, rfl⟩
  have hUU : U * star U = 1 := by rw [hU]; exact Unitary.coe_mul_star_self _
  have hUU' : star U * U = 1 := by rw [hU]; exact Unitary.coe_star_mul_self _
  have hspec : -(B * D * star B) * U = U * diagonal hM.eigenvalues := by
    have h1 := hM.spectral_theorem
    rw [Unitary.conjStarAlgAut_apply, ← hU] at h1
    have h2 : (RCLike.ofReal ∘ hM.eigenvalues : P n → ℝ) = hM.eigenvalues := rfl
    rw [h2] at h1
    calc -(B * D * star B) * U = U * diagonal hM.eigenvalues * star U * U := congrArg (· * U) h1
      _ = _ := by rw [mul_assoc, hUU', mul_one]
  have hBB : B⁻¹ * B = 1 := nonsing_inv_mul _ hdet
  have hBB' : B * B⁻¹ = 1 := mul_nonsing_inv _ hdet
  have hreal : odeA Rd mcp * (B⁻¹ * U) = B⁻¹ * U * diagonal hM.eigenvalues := by
    rw [mul_assoc B⁻¹, ← hspec, hA]
    calc -(D * (star B * B)) * (B⁻¹ * U) = -(D * star B * (B * B⁻¹) * U) := by
          simp only [neg_mul, mul_assoc]
      _ = -((B⁻¹ * B) * D * star B * U) := by rw [hBB, hBB', mul_one, one_mul]
      _ = _ := by simp only [neg_mul, mul_neg, mul_assoc]
  have hinv : (B⁻¹ * U) * (star U * B) = 1 := by
    calc (B⁻¹ * U) * (star U * B) = B⁻¹ * (U * star U) * B := by simp only [mul_assoc]
      _ = 1 := by rw [hUU, mul_one, hBB]
  have hmap : ∀ X Y : Matrix (P n) (P n) ℝ, (X * Y).map ((↑) : ℝ → ℂ) = X.map (↑) * Y.map (↑) := by
    intro X Y
    exact Matrix.map_mul (f := Complex.ofRealHom)
  refine ⟨⟨fun i => (hM.eigenvalues i : ℂ), (B⁻¹ * U).map (↑), (star U * B).map (↑)⟩, ?_, ?_⟩
  · show (odeA Rd mcp).map (↑) * (B⁻¹ * U).map (↑) = (B⁻¹ * U).map (↑) * diagonal fun i => (hM.eigenvalues i : ℂ)
    rw [← hmap, hreal, hmap]
    congr 1
    rw [Matrix.diagonal_map (by simp)]
  · show (B⁻¹ * U).map (↑) * (star U * B).map (↑) = (1 : Matrix (P n) (P n) ℂ)
    rw [← hmap, hinv]
    exact Matrix.map_one _ (by simp) (by simp)

end Verif.Pipe.Multi
