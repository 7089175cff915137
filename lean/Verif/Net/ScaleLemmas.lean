import Verif.Gf.NetworkModel
import Verif.Pipe.ScaleProps

/-!
# Networks with scaled boreholes and flow rates
-/

noncomputable section

namespace Verif.Net

open Matrix

variable {n : ℕ} {ns : Fin n → ℕ} {g : ℝ}

/-- All flow rates multiplied by `g`. -/
def Formatted.scale (g : ℝ) (f : Formatted) : Formatted := ⟨f.mIn.map (g * ·), f.rev, f.cp⟩

theorem formatFlow_scale (k : ℕ) (m : List ℝ) : formatFlow k (m.map (g * ·)) = (formatFlow k m).map fun l => l.map (g * ·) := by
  match m with
  | [] => unfold formatFlow; simp only [List.map_nil, List.length_nil]; split_ifs <;> rfl
  | [a] => unfold formatFlow; simp [Except.map, mul_div_assoc]
  | a :: b :: l => unfold formatFlow; simp only [List.map_cons, List.length_cons, List.length_map]; split_ifs <;> rfl

theorem format_scale (hg : 0 < g) (t : Topology) (m : List ℝ) (cp : List ℝ) : format t (m.map (g * ·)) cp = (format t m cp).map (Formatted.scale g) := by
  unfold format
  rw [formatFlow_scale]
  have h1 : (∀ a ∈ m.map (g * ·), 0 ≤ a) ↔ ∀ a ∈ m, 0 ≤ a := by
    rw [List.forall_mem_map]; exact forall₂_congr fun a _ => by constructor <;> intro h <;> [exact nonneg_of_mul_nonneg_right h hg; exact mul_nonneg hg.le h]
  have h2 : (∀ a ∈ m.map (g * ·), a ≤ 0) ↔ ∀ a ∈ m, a ≤ 0 := by
    rw [List.forall_mem_map]; exact forall₂_congr fun a _ => by constructor <;> intro h <;> [exact nonpos_of_mul_nonpos_right h hg; exact mul_nonpos_of_nonneg_of_nonpos hg.le h]
  simp only [h1, h2]
  cases formatFlow t.nInlets m with
  | error e => rfl
  | ok l =>
    simp only [Except.map]
    split_ifs
    · cases formatCp t.nInlets cp <;> rfl
    · cases formatCp t.nInlets cp <;> rfl
    · rfl

theorem mBore_scale (t : Topology) (f : Formatted) (i : ℕ) : mBore t (f.scale g) i = g * mBore t f i := by
  unfold mBore Formatted.scale
  dsimp only
  generalize t.iCircuit.getD i 0 = k
  rw [List.getD_eq_getElem?_getD, List.getD_eq_getElem?_getD, List.getElem?_map]
  cases f.mIn[k]? <;> simp

variable {p p' : (i : Fin n) → Pipe (ns i)} (hp : ∀ i, (p i).Scaled g (p' i)) (t : Topology) (f : Formatted)
include hp

theorem boreA_scale : boreA t p' (f.scale g) = boreA t p f := by
  funext i
  unfold boreA
  rw [mBore_scale]
  exact (hp i).outA _ _

theorem boreB_scale : boreB t p' (f.scale g) = boreB t p f := by
  funext i s
  unfold boreB
  rw [mBore_scale]
  exact (hp i).outB _ _ s

theorem netInlet_scale : netInlet t p' (f.scale g) = netInlet t p f := by
  unfold netInlet
  rw [boreA_scale hp, boreB_scale hp]
  rfl

theorem netOutlet_scale : netOutlet t p' (f.scale g) = netOutlet t p f := by
  unfold netOutlet
  rw [boreA_scale hp, boreB_scale hp]
  rfl

theorem boreHeat_scale (k : Coef (Fin n) ns) : boreHeat t p' (f.scale g) k = ⟨g • (boreHeat t p f k).aIn, g • (boreHeat t p f k).aB⟩ := by
  have e1 : blockCol (fun i => (p' i).heatA (mBore t (f.scale g) i) (f.scale g).cp) = g • blockCol (fun i => (p i).heatA (mBore t f i) f.cp) := by
    funext s i
    rw [Matrix.smul_apply, smul_eq_mul]
    unfold blockCol
    beta_reduce
    rw [mBore_scale]
    by_cases h : s.1 = i
    · rw [if_pos h, if_pos h]; exact (hp s.1).heatA _ _ _
    · rw [if_neg h, if_neg h, mul_zero]
  have e2 : (Matrix.blockDiagonal' fun i => (p' i).heatB (mBore t (f.scale g) i) (f.scale g).cp) = g • Matrix.blockDiagonal' fun i => (p i).heatB (mBore t f i) f.cp := by
    rw [← Matrix.blockDiagonal'_smul]
    congr 1
    funext i s u
    rw [mBore_scale]
    exact (hp i).heatB _ _ _ _
  unfold boreHeat
  dsimp only
  rw [e1, e2, Matrix.smul_mulVec, Matrix.smul_mul, smul_add]

theorem fluidHeat_scale (hg : 0 < g) (k : Coef (Fin n) ns) : fluidHeat t p' (f.scale g) k = ⟨g • (fluidHeat t p f k).aIn, g • (fluidHeat t p f k).aB⟩ := by
  have e1 : diagA (fun i => (p' i).fluidA (mBore t (f.scale g) i) (f.scale g).cp) = g • diagA (fun i => (p i).fluidA (mBore t f i) f.cp) := by
    unfold diagA
    rw [← Matrix.diagonal_smul]
    congr 1
    funext i
    rw [Pi.smul_apply, smul_eq_mul]
    unfold Pipe.fluidA
    rw [mBore_scale, (hp i).outA, abs_mul, abs_of_pos hg]
    show -(g * |mBore t f i| * f.cp) + g * |mBore t f i| * f.cp * (p i).outA (mBore t f i) f.cp = _
    ring
  have e2 : (blockB fun i => (p' i).fluidB (mBore t (f.scale g) i) (f.scale g).cp) = g • blockB fun i => (p i).fluidB (mBore t f i) f.cp := by
    funext i s
    rw [Matrix.smul_apply, smul_eq_mul]
    unfold blockB
    by_cases h : s.1 = i
    · rw [if_pos h, if_pos h]
      unfold Pipe.fluidB
      beta_reduce
      rw [mBore_scale, (hp s.1).outB, abs_mul, abs_of_pos hg]
      show g * |mBore t f s.1| * f.cp * (p s.1).outB (mBore t f s.1) f.cp s.2 = _
      ring
    · rw [if_neg h, if_neg h, mul_zero]
  unfold fluidHeat
  dsimp only
  rw [e1, e2, Matrix.smul_mulVec, Matrix.smul_mul, smul_add]

omit hp in
theorem mixing_scale (hg : 0 < g) (o : List ℕ) (m : List ℝ) : mixing o (m.map (g * ·)) = mixing o m := by
  funext i
  unfold mixing
  cases o.findIdx? (· = i) with
  | none => rfl
  | some k =>
    dsimp only
    have h1 : |(m.map (g * ·)).getD k 0| = g * |m.getD k 0| := by
      rw [List.getD_eq_getElem?_getD, List.getD_eq_getElem?_getD, List.getElem?_map]
      cases m[k]? with
      | none => simp
      | some a => simp [abs_mul, abs_of_pos hg]
    have h2 : ((m.map (g * ·)).map abs).sum = g * (m.map abs).sum := by
      rw [List.map_map, ← List.sum_map_mul_left]
      congr 1
      refine List.map_congr_left fun a _ => ?_
      simp [abs_mul, abs_of_pos hg]
    rw [h1, h2, mul_div_mul_left _ _ hg.ne']

end Verif.Net

namespace Verif.Gf

open Net

theorem fieldResistance_scale {n : ℕ} {c κ : ℝ} (hc : 0 < c) (hκ : 0 < κ) {p p' : Fin n → Net.Pipe 1} (hp : ∀ i, (p i).Scaled (κ * c) (p' i)) (t : Topology) (f : Formatted) (Htot : ℝ) :
    fieldResistance t p' (f.scale (κ * c)) (c * Htot) = (fieldResistance t p f Htot).map (· / κ) := by
  have hg : 0 < κ * c := mul_pos hκ hc
  unfold fieldResistance
  rw [netInlet_scale (ns := fun _ => 1) hp, netOutlet_scale (ns := fun _ => 1) hp]
  cases netInlet t p f with
  | none => rfl
  | some ki =>
    cases netOutlet t p f with
    | none => rfl
    | some ko =>
      dsimp only
      rw [fluidHeat_scale (ns := fun _ => 1) hp t f hg, show flowOutlets t (f.scale (κ * c)) = flowOutlets t f from rfl, show (f.scale (κ * c)).mIn = f.mIn.map (κ * c * ·) from rfl,
        mixing_scale hg, Option.map_some]
      congr 1
      unfold netResistance netHeat
      simp only [Pi.smul_apply, smul_eq_mul]
      rw [← Finset.mul_sum]
      generalize ∑ i, (Net.fluidHeat t p f ki).aIn i = q
      rw [div_div, show -0.5 * (c * Htot) * (1 + (netMixed (mixing (flowOutlets t f) f.mIn) ko).aIn ()) = c * (-0.5 * Htot * (1 + (netMixed (mixing (flowOutlets t f) f.mIn) ko).aIn ())) by ring,
        show κ * c * q = c * (q * κ) by ring, mul_div_mul_left _ _ hc.ne']

end Verif.Gf
