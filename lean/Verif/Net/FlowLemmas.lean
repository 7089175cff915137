import Verif.Net.FlowModel
import Verif.Net.TopoProps
import Mathlib.LinearAlgebra.Matrix.SchurComplement

/-! # Lemmas on the network coefficient matrices -/

noncomputable section

namespace Verif.Net

open Matrix

variable {n : ℕ} {ns : Fin n → ℕ}

/-- Specification: in the direction of flow, the fluid entering borehole `i` comes from
borehole `j`. -/
def FedBy (t : Topology) (f : Formatted) (i j : ℕ) : Prop :=
  if f.rev then t.c[j]? = some (i : ℤ) else t.c[i]? = some (j : ℤ)

/-- Specification: inlet temperatures `x` and outlet temperatures `y` of the boreholes obey the
borehole models and the piping of the network. -/
structure Solves (t : Topology) (f : Formatted) (a : Fin n → ℝ) (b : (i : Fin n) → Fin (ns i) → ℝ)
    (Tin : ℝ) (Tb : SegIdx ns → ℝ) (x y : Fin n → ℝ) : Prop where
  model : ∀ i, y i = a i * x i + ∑ s, b i s * Tb ⟨i, s⟩
  fed : ∀ i j : Fin n, FedBy t f i j → x i = y j
  inlet : ∀ i : Fin n, (∀ j : Fin n, ¬ FedBy t f i j) → x i = Tin

theorem blockB_mulVec (b : (i : Fin n) → Fin (ns i) → ℝ) (Tb : SegIdx ns → ℝ) (i : Fin n) :
    (blockB b *ᵥ Tb) i = ∑ s, b i s * Tb ⟨i, s⟩ := by
  rw [Matrix.mulVec, dotProduct, Fintype.sum_sigma]
  rw [Finset.sum_eq_single i]
  · simp [blockB]
  · intro j _ hj
    simp [blockB, hj]
  · simp

theorem diagA_mulVec (a v : Fin n → ℝ) (i : Fin n) : (diagA a *ᵥ v) i = a i * v i := by
  rw [diagA, Matrix.mulVec_diagonal]

section rel
variable (R : Fin n → Fin n → Prop) [∀ i j, Decidable (R i j)]

/-- 0/1 matrix of a relation. -/
def relMat : Matrix (Fin n) (Fin n) ℝ := fun i j => if R i j then 1 else 0

theorem relMat_mulVec (hR : ∀ i j j', R i j → R i j' → j = j') (v : Fin n → ℝ) (i j : Fin n) (h : R i j) :
    (relMat R *ᵥ v) i = v j := by
  rw [Matrix.mulVec, dotProduct, Finset.sum_eq_single j]
  · simp [relMat, h]
  · intro k _ hk
    have : ¬ R i k := fun hk' => hk (hR i k j hk' h)
    simp [relMat, this]
  · simp

theorem relMat_mulVec_none (v : Fin n → ℝ) (i : Fin n) (h : ∀ j, ¬ R i j) : (relMat R *ᵥ v) i = 0 := by
  rw [Matrix.mulVec, dotProduct]
  apply Finset.sum_eq_zero
  intro j _
  simp [relMat, h j]

theorem rel_nonsingular (hR : ∀ i j j', R i j → R i j' → j = j') (rank : Fin n → ℕ)
    (hrank : ∀ i j, R i j → rank j < rank i) (a : Fin n → ℝ) :
    IsUnit (1 - relMat R * diagA a).det := by
  rw [← Matrix.isUnit_iff_isUnit_det, ← Matrix.mulVec_injective_iff_isUnit]
  intro u w huw
  have hv : (1 - relMat R * diagA a) *ᵥ (u - w) = 0 := by
    rw [Matrix.mulVec_sub]; exact sub_eq_zero.mpr huw
  have key : ∀ m i, rank i < m → (u - w) i = 0 := by
    intro m
    induction m with
    | zero => intro i hi; omega
    | succ m ih =>
      intro i hi
      have hi0 : (u - w) i = (relMat R *ᵥ (diagA a *ᵥ (u - w))) i := by
        have := congrFun hv i
        rw [Matrix.sub_mulVec, Matrix.one_mulVec, ← Matrix.mulVec_mulVec] at this
        simp only [Pi.sub_apply, Pi.zero_apply] at this ⊢
        linarith
      by_cases hex : ∃ j, R i j
      · obtain ⟨j, hj⟩ := hex
        rw [hi0, relMat_mulVec R hR _ i j hj, diagA_mulVec, ih j (by have := hrank i j hj; omega), mul_zero]
      · rw [hi0, relMat_mulVec_none R _ i (fun j hj => hex ⟨j, hj⟩)]
  have : u - w = 0 := by
    funext i
    exact key _ i (Nat.lt_succ_self _)
  exact sub_eq_zero.mp this

end rel

theorem solve_ok {ι : Type*} (M : Matrix (Fin n) (Fin n) ℝ) (R : Matrix (Fin n) ι ℝ) (h : IsUnit M.det) :
    solve M R = some (M⁻¹ * R) := by
  unfold solve; rw [if_pos h]

theorem inletCoef_eval (C : Matrix (Fin n) (Fin n) ℝ) (ci a : Fin n → ℝ) (b : (i : Fin n) → Fin (ns i) → ℝ)
    (hM : IsUnit (1 - C * diagA a).det) :
    ∃ k, inletCoef C ci a b = some k ∧ ∀ Tin Tb, k.eval Tin Tb
      = (1 - C * diagA a)⁻¹ *ᵥ (Tin • ci + C *ᵥ (blockB b *ᵥ Tb)) := by
  unfold inletCoef
  rw [solve_ok _ _ hM, solve_ok _ _ hM]
  refine ⟨_, rfl, ?_⟩
  intro Tin Tb
  funext i
  rw [Matrix.mulVec_add, Matrix.mulVec_smul, Matrix.mulVec_mulVec, Matrix.mulVec_mulVec, ← Matrix.mul_assoc]
  simp only [Coef.eval, Pi.add_apply, Pi.smul_apply, smul_eq_mul]
  rw [Matrix.mul_assoc, mul_comm Tin]
  rfl

theorem outletCoef_eval (C : Matrix (Fin n) (Fin n) ℝ) (ci a : Fin n → ℝ) (b : (i : Fin n) → Fin (ns i) → ℝ)
    (hM : IsUnit (1 - diagA a * C).det) :
    ∃ k, outletCoef C ci a b = some k ∧ ∀ Tin Tb, k.eval Tin Tb
      = (1 - diagA a * C)⁻¹ *ᵥ (Tin • (diagA a *ᵥ ci) + blockB b *ᵥ Tb) := by
  unfold outletCoef
  rw [solve_ok _ _ hM, solve_ok _ _ hM]
  refine ⟨_, rfl, ?_⟩
  intro Tin Tb
  funext i
  rw [Matrix.mulVec_add, Matrix.mulVec_smul, Matrix.mulVec_mulVec, Matrix.mulVec_mulVec]
  simp only [Coef.eval, Pi.add_apply, Pi.smul_apply, smul_eq_mul]
  rw [mul_comm Tin, ← Matrix.mul_assoc]
  rfl

/-- The linear system of the network and its solution. -/
theorem linear_system (C : Matrix (Fin n) (Fin n) ℝ) (ci a : Fin n → ℝ) (b : (i : Fin n) → Fin (ns i) → ℝ)
    (hM : IsUnit (1 - C * diagA a).det) :
    ∃ ki ko, inletCoef C ci a b = some ki ∧ outletCoef C ci a b = some ko ∧ ∀ Tin Tb, ∀ x y : Fin n → ℝ,
      (x = Tin • ci + C *ᵥ y ∧ y = diagA a *ᵥ x + blockB b *ᵥ Tb) ↔
        x = ki.eval Tin Tb ∧ y = ko.eval Tin Tb := by
  have hN : IsUnit (1 - diagA a * C).det := by rw [Matrix.det_one_sub_mul_comm]; exact hM
  obtain ⟨ki, hki, hi⟩ := inletCoef_eval C ci a b hM
  obtain ⟨ko, hko, ho⟩ := outletCoef_eval C ci a b hN
  refine ⟨ki, ko, hki, hko, ?_⟩
  intro Tin Tb
  obtain ⟨β, hβ⟩ : ∃ β, β = blockB b *ᵥ Tb := ⟨_, rfl⟩
  have invM : ∀ x w : Fin n → ℝ, (1 - C * diagA a) *ᵥ x = w ↔ x = (1 - C * diagA a)⁻¹ *ᵥ w := by
    intro x w
    constructor
    · rintro rfl
      rw [Matrix.mulVec_mulVec, Matrix.nonsing_inv_mul _ hM, Matrix.one_mulVec]
    · rintro rfl
      rw [Matrix.mulVec_mulVec, Matrix.mul_nonsing_inv _ hM, Matrix.one_mulVec]
  have invN : ∀ x w : Fin n → ℝ, (1 - diagA a * C) *ᵥ x = w ↔ x = (1 - diagA a * C)⁻¹ *ᵥ w := by
    intro x w
    constructor
    · rintro rfl
      rw [Matrix.mulVec_mulVec, Matrix.nonsing_inv_mul _ hN, Matrix.one_mulVec]
    · rintro rfl
      rw [Matrix.mulVec_mulVec, Matrix.mul_nonsing_inv _ hN, Matrix.one_mulVec]
  have hMx : ∀ x : Fin n → ℝ, (1 - C * diagA a) *ᵥ x = x - C *ᵥ (diagA a *ᵥ x) := by
    intro x; rw [Matrix.sub_mulVec, Matrix.one_mulVec, Matrix.mulVec_mulVec]
  have hNy : ∀ y : Fin n → ℝ, (1 - diagA a * C) *ᵥ y = y - diagA a *ᵥ (C *ᵥ y) := by
    intro y; rw [Matrix.sub_mulVec, Matrix.one_mulVec, Matrix.mulVec_mulVec]
  have fwd : ∀ x y : Fin n → ℝ, (x = Tin • ci + C *ᵥ y ∧ y = diagA a *ᵥ x + β) →
      x = ki.eval Tin Tb ∧ y = ko.eval Tin Tb := by
    rintro x y ⟨h1, h2⟩
    constructor
    · rw [hi, ← hβ, ← invM, hMx]
      have : C *ᵥ y = C *ᵥ (diagA a *ᵥ x) + C *ᵥ β := by rw [← Matrix.mulVec_add, ← h2]
      rw [this] at h1
      funext i
      have := congrFun h1 i
      simp only [Pi.add_apply, Pi.sub_apply] at this ⊢
      linarith
    · rw [ho, ← hβ, ← invN, hNy]
      have : diagA a *ᵥ x = Tin • (diagA a *ᵥ ci) + diagA a *ᵥ (C *ᵥ y) := by
        conv_lhs => rw [h1]
        rw [Matrix.mulVec_add, Matrix.mulVec_smul]
      rw [this] at h2
      funext i
      have := congrFun h2 i
      simp only [Pi.add_apply, Pi.sub_apply] at this ⊢
      linarith
  intro x y
  rw [← hβ]
  refine ⟨fwd x y, ?_⟩
  rintro ⟨hx, hy⟩
  -- the solution built from the inlet coefficients
  have hxe := (invM x _).mpr (by rw [hx, hi])
  rw [hMx, ← hβ] at hxe
  have hsol : x = Tin • ci + C *ᵥ (diagA a *ᵥ x + β) := by
    rw [Matrix.mulVec_add]
    funext i
    have := congrFun hxe i
    simp only [Pi.add_apply, Pi.sub_apply] at this ⊢
    linarith
  have := (fwd x (diagA a *ᵥ x + β) ⟨hsol, rfl⟩).2
  rw [← hy] at this
  rw [← this]
  exact ⟨hsol, rfl⟩

section topo
variable {conn : Option (List ℤ)} {t : Topology}

open Classical in
/-- The connectivity arrays as 0/1 arrays of the relation "is fed by". -/
theorem cOut_rel (f : Formatted) : cOut n t f = relMat fun i j : Fin n => FedBy t f i j := by
  funext i j
  unfold cOut relMat FedBy
  cases f.rev
  · simp only [Bool.false_eq_true, if_false, cOutPos]
  · simp only [if_true, cOutNeg]

theorem fedBy_functional (h : construct n conn = .ok t) (f : Formatted) (i j k : Fin n)
    (h1 : FedBy t f i j) (h2 : FedBy t f i k) : j = k := by
  obtain ⟨-, -, hv, -⟩ := construct_ok h
  unfold FedBy at h1 h2
  cases hf : f.rev
  · simp only [hf, Bool.false_eq_true, if_false] at h1 h2
    rw [h1] at h2
    simp only [Option.some.injEq, Nat.cast_inj] at h2
    exact Fin.ext h2
  · simp only [hf, if_true] at h1 h2
    by_contra hne
    have := hv.inj j k j.2 k.2 (fun e => hne (Fin.ext e)) (by rw [h1, h2])
    rw [h1] at this
    simp only [Option.some.injEq] at this
    omega

theorem fedBy_rank (h : construct n conn = .ok t) (f : Formatted) :
    ∃ rank : Fin n → ℕ, ∀ i j : Fin n, FedBy t f i j → rank j < rank i := by
  obtain ⟨-, -, hv, -⟩ := construct_ok h
  have hex : ∀ i : Fin n, ∃ d r, Up t.c d i r := fun i => hv.reach i i.2
  choose d r hd using hex
  unfold FedBy
  have hstep : ∀ i j : Fin n, t.c[(i : ℕ)]? = some ((j : ℕ) : ℤ) → d i = d j + 1 := by
    intro i j hij
    exact ((hd i).det (Up.step (d j) i j (r j) hij (hd j))).1
  cases f.rev
  · refine ⟨d, ?_⟩
    intro i j hij
    simp only [Bool.false_eq_true, if_false] at hij
    have := hstep i j hij
    omega
  · refine ⟨fun i => n - d i, ?_⟩
    intro i j hij
    simp only [if_true] at hij
    have h1 := hstep j i hij
    have h2 : d j < n := by have := (hd j).depth_lt; rwa [hv.len] at this
    show n - d j < n - d i
    omega

theorem flowInlets_iff (h : construct n conn = .ok t) (f : Formatted) (i : Fin n) :
    (i : ℕ) ∈ flowInlets t f ↔ ∀ j : Fin n, ¬ FedBy t f i j := by
  obtain ⟨-, -, hv, hin, hout, -⟩ := construct_ok h
  unfold flowInlets FedBy
  cases f.rev
  · simp only [Bool.false_eq_true, if_false]
    rw [hin, inletList_mem]
    constructor
    · rintro ⟨-, h1⟩ j h2
      rw [h1] at h2
      simp only [Option.some.injEq] at h2
      omega
    · intro h1
      refine ⟨i.2, ?_⟩
      have hlt : (i : ℕ) < t.c.length := by rw [hv.len]; exact i.2
      have hget : t.c[(i : ℕ)]? = some t.c[(i : ℕ)] := List.getElem?_eq_getElem hlt
      rcases hv.entries _ (List.getElem_mem hlt) with h2 | ⟨j, hj, h2⟩
      · rw [hget, h2]
      · exact absurd (by rw [hget, h2]) (h1 ⟨j, hj⟩)
  · simp only [if_true]
    rw [hout, outletList_mem]
    constructor
    · rintro ⟨-, h1⟩ j h2
      exact h1 (List.mem_of_getElem? h2)
    · intro h1
      refine ⟨i.2, fun h2 => ?_⟩
      obtain ⟨j, hj, h3⟩ := List.mem_iff_getElem.mp h2
      exact h1 ⟨j, by rw [hv.len] at hj; exact hj⟩ (by rw [List.getElem?_eq_getElem hj, h3])

open Classical in
theorem linear_iff_solves (h : construct n conn = .ok t) (f : Formatted) (a : Fin n → ℝ)
    (b : (i : Fin n) → Fin (ns i) → ℝ) (Tin : ℝ) (Tb : SegIdx ns → ℝ) (x y : Fin n → ℝ) :
    (x = Tin • cIn n (flowInlets t f) + cOut n t f *ᵥ y ∧ y = diagA a *ᵥ x + blockB b *ᵥ Tb) ↔
      Solves t f a b Tin Tb x y := by
  have hx : ∀ i, (Tin • cIn n (flowInlets t f) + cOut n t f *ᵥ y) i
      = if hex : ∃ j : Fin n, FedBy t f i j then y hex.choose else Tin := by
    intro i
    rw [cOut_rel, Pi.add_apply, Pi.smul_apply, smul_eq_mul]
    split_ifs with hex
    · have hj := hex.choose_spec
      rw [relMat_mulVec _ (fun i j k => fedBy_functional h f i j k) y i _ hj]
      have : (i : ℕ) ∉ flowInlets t f := by
        rw [flowInlets_iff h]; push Not; exact hex
      simp [cIn, this]
    · have hno : ∀ j : Fin n, ¬ FedBy t f i j := fun j hj => hex ⟨j, hj⟩
      rw [relMat_mulVec_none _ y i hno]
      have : (i : ℕ) ∈ flowInlets t f := (flowInlets_iff h f i).mpr hno
      simp [cIn, this]
  have hy : ∀ i, (diagA a *ᵥ x + blockB b *ᵥ Tb) i = a i * x i + ∑ s, b i s * Tb ⟨i, s⟩ := by
    intro i
    rw [Pi.add_apply, diagA_mulVec, blockB_mulVec]
  constructor
  · rintro ⟨h1, h2⟩
    refine ⟨?_, ?_, ?_⟩
    · intro i; rw [← hy i]; exact congrFun h2 i
    · intro i j hij
      have := congrFun h1 i
      have hex : ∃ j : Fin n, FedBy t f i j := ⟨j, hij⟩
      rw [hx, dif_pos hex] at this
      rw [this, fedBy_functional h f i _ j hex.choose_spec hij]
    · intro i hno
      have := congrFun h1 i
      rw [hx, dif_neg (by push Not; exact hno)] at this
      exact this
  · rintro ⟨h1, h2, h3⟩
    constructor
    · funext i
      rw [hx]
      split_ifs with hex
      · exact h2 i _ hex.choose_spec
      · exact h3 i fun j hj => hex ⟨j, hj⟩
    · funext i
      rw [hy]; exact h1 i

end topo

end Verif.Net
