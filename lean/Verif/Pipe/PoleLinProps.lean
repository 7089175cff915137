import Verif.Pipe.PoleStopProps
import Verif.Pipe.PolePipeProps

/-!
# Property C74: the thermal resistances reproduce the multipole solution for all heat flows
-/

noncomputable section

namespace Verif.Pipe.Pole

open ComplexConjugate

variable {n J : ℕ} (s : Sec n)

/-- Heat flow in pipe `m` only. -/
def unit (m : Fin n) : Fin n → ℝ := fun k => if k = m then 1 else 0

theorem F_add (q q' : Fin n → ℝ) (P P' : Fin n → Fin J → ℂ) (m : Fin n) (k : Fin J) :
    s.F (fun i => q i + q' i) (fun i j => P i j + P' i j) m k = s.F q P m k + s.F q' P' m k := by
  unfold Sec.F
  have h1 : ∀ (c : Fin n → ℂ), (∑ i, if m = i then 0 else c i * ((q i + q' i : ℝ) : ℂ)) = (∑ i, if m = i then 0 else c i * (q i : ℂ)) + ∑ i, if m = i then 0 else c i * (q' i : ℂ) := by
    intro c
    rw [← Finset.sum_add_distrib]
    refine Finset.sum_congr rfl fun i _ => ?_
    split_ifs
    · simp
    · push_cast; ring
  have h2 : ∀ (c w : Fin n → ℂ), (∑ i, c i * (((q i + q' i : ℝ) : ℂ) * w i)) = (∑ i, c i * ((q i : ℂ) * w i)) + ∑ i, c i * ((q' i : ℂ) * w i) := by
    intro c w
    rw [← Finset.sum_add_distrib]
    refine Finset.sum_congr rfl fun i _ => ?_
    push_cast; ring
  have h3 : ∀ (c : Fin n → ℂ) (w : Fin n → ℂ) (j : Fin J), (∑ i, if m = i then 0 else c i * ((P i j + P' i j) * w i))
      = (∑ i, if m = i then 0 else c i * (P i j * w i)) + ∑ i, if m = i then 0 else c i * (P' i j * w i) := by
    intro c w j
    rw [← Finset.sum_add_distrib]
    refine Finset.sum_congr rfl fun i _ => ?_
    split_ifs
    · simp
    · ring
  have h4 : ∀ (c w v : Fin n → ℂ) (j : Fin J), (∑ i, c i * (conj (P i j + P' i j) * w i * v i))
      = (∑ i, c i * (conj (P i j) * w i * v i)) + ∑ i, c i * (conj (P' i j) * w i * v i) := by
    intro c w v j
    rw [← Finset.sum_add_distrib]
    refine Finset.sum_congr rfl fun i _ => ?_
    rw [map_add]; ring
  simp only [h1 fun i => 1 / (-(s.z m - s.z i)) ^ (k.val + 1), h2 _ fun i => conj (s.z i) ^ (k.val + 1), h3 _ _ _, h4 _ _ _ _, mul_add, Finset.sum_add_distrib]
  ring

theorem F_smul (c : ℝ) (q : Fin n → ℝ) (P : Fin n → Fin J → ℂ) (m : Fin n) (k : Fin J) :
    s.F (fun i => c * q i) (fun i j => c * P i j) m k = c * s.F q P m k := by
  unfold Sec.F
  have h1 : ∀ (a : Fin n → ℂ), (∑ i, if m = i then 0 else a i * ((c * q i : ℝ) : ℂ)) = c * ∑ i, if m = i then 0 else a i * (q i : ℂ) := by
    intro a
    rw [Finset.mul_sum]
    refine Finset.sum_congr rfl fun i _ => ?_
    split_ifs
    · simp
    · push_cast; ring
  have h2 : ∀ (a w : Fin n → ℂ), (∑ i, a i * (((c * q i : ℝ) : ℂ) * w i)) = c * ∑ i, a i * ((q i : ℂ) * w i) := by
    intro a w
    rw [Finset.mul_sum]
    refine Finset.sum_congr rfl fun i _ => ?_
    push_cast; ring
  have h3 : ∀ (a : Fin n → ℂ) (w : Fin n → ℂ) (j : Fin J), (∑ i, if m = i then 0 else a i * ((c * P i j) * w i))
      = c * ∑ i, if m = i then 0 else a i * (P i j * w i) := by
    intro a w j
    rw [Finset.mul_sum]
    refine Finset.sum_congr rfl fun i _ => ?_
    split_ifs
    · simp
    · ring
  have h4 : ∀ (a w v : Fin n → ℂ) (j : Fin J), (∑ i, a i * (conj (c * P i j) * w i * v i)) = c * ∑ i, a i * (conj (P i j) * w i * v i) := by
    intro a w v j
    rw [Finset.mul_sum]
    refine Finset.sum_congr rfl fun i _ => ?_
    rw [map_mul, Complex.conj_ofReal]; ring
  simp only [h1 fun i => 1 / (-(s.z m - s.z i)) ^ (k.val + 1), h2 _ fun i => conj (s.z i) ^ (k.val + 1), h3 _ _ _, h4 _ _ _ _]
  rw [mul_add, mul_add, mul_left_comm _ (c : ℂ), mul_left_comm _ (c : ℂ)]
  congr 1
  · rw [Finset.mul_sum]
    refine Finset.sum_congr rfl fun j _ => ?_
    rw [mul_add, mul_left_comm _ (c : ℂ)]
    congr 1
    rw [Finset.mul_sum]
    exact Finset.sum_congr rfl fun p _ => mul_left_comm _ _ _

theorem next_add (q q' : Fin n → ℝ) (P P' : Fin n → Fin J → ℂ) :
    s.next (fun i => q i + q' i) (fun i j => P i j + P' i j) = fun i j => s.next q P i j + s.next q' P' i j := by
  funext m k
  unfold Sec.next
  rw [F_add, map_add]; ring

theorem next_smul (c : ℝ) (q : Fin n → ℝ) (P : Fin n → Fin J → ℂ) :
    s.next (fun i => c * q i) (fun i j => c * P i j) = fun i j => c * s.next q P i j := by
  funext m k
  unfold Sec.next
  rw [F_smul, map_mul, Complex.conj_ofReal]; ring

theorem next_zero : s.next (fun _ => 0) (fun _ (_ : Fin J) => 0) = fun _ _ => 0 := by
  have := next_smul s 0 (fun _ => 0) (fun _ (_ : Fin J) => 0)
  simpa using this

/-- The step (EQ. 38) is linear in heat flows and multipoles. -/
theorem next_sum (S : Finset (Fin n)) (q : Fin n → ℝ) (e : Fin n → Fin n → ℝ) (P : Fin n → Fin n → Fin J → ℂ) :
    s.next (fun i => ∑ m ∈ S, q m * e m i) (fun i j => ∑ m ∈ S, q m * P m i j) = fun i j => ∑ m ∈ S, q m * s.next (e m) (P m) i j := by
  induction S using Finset.induction_on with
  | empty => simpa using next_zero s
  | insert a S ha ih =>
    simp only [Finset.sum_insert ha]
    rw [next_add s (fun i => q a * e a i) (fun i => ∑ m ∈ S, q m * e m i) (fun i j => q a * P a i j) (fun i j => ∑ m ∈ S, q m * P m i j), next_smul, ih]

theorem sum_unit (q : Fin n → ℝ) : (fun i => ∑ m, q m * unit m i) = q := by
  funext i
  simp [unit]

/-- Fluid temperatures are linear in heat flows and multipoles. -/
theorem fluid_sum (Tb : ℝ) (q : Fin n → ℝ) (P : Fin n → Fin n → Fin J → ℂ) (i : Fin n) :
    s.fluid Tb q (fun i j => ∑ m, q m * P m i j) i = Tb + ∑ m, s.fluid 0 (unit m) (P m) i * q m := by
  unfold Sec.fluid
  have h1 : ∑ l, s.R0 i l * q l = ∑ m, (∑ l, s.R0 i l * unit m l) * q m := by
    refine Finset.sum_congr rfl fun m _ => ?_
    simp [unit]
  have h2 : ∀ (j : Fin J) (c w : Fin n → ℂ), (∑ l, if i = l then 0 else c l * ((∑ m, (q m : ℂ) * P m l j) * w l)).re
      = ∑ m, (∑ l, if i = l then 0 else c l * (P m l j * w l) : ℂ).re * q m := by
    intro j c w
    have : (∑ l, if i = l then 0 else c l * ((∑ m, (q m : ℂ) * P m l j) * w l)) = ∑ m, (∑ l, if i = l then 0 else c l * (P m l j * w l) : ℂ) * (q m : ℂ) := by
      simp only [Finset.sum_mul]
      rw [Finset.sum_comm]
      refine Finset.sum_congr rfl fun l _ => ?_
      split_ifs
      · simp
      · rw [Finset.mul_sum]
        exact Finset.sum_congr rfl fun m _ => by ring
    rw [this, Complex.re_sum]
    exact Finset.sum_congr rfl fun m _ => by rw [Complex.re_mul_ofReal]
  have h3 : ∀ (j : Fin J) (a : ℂ) (c w : Fin n → ℂ), (a * ∑ l, c l * ((∑ m, (q m : ℂ) * P m l j) * w l)).re
      = ∑ m, (a * ∑ l, c l * (P m l j * w l) : ℂ).re * q m := by
    intro j a c w
    have : (a * ∑ l, c l * ((∑ m, (q m : ℂ) * P m l j) * w l)) = ∑ m, (a * ∑ l, c l * (P m l j * w l) : ℂ) * (q m : ℂ) := by
      simp only [Finset.mul_sum, Finset.sum_mul]
      rw [Finset.sum_comm]
      refine Finset.sum_congr rfl fun l _ => ?_
      exact Finset.sum_congr rfl fun m _ => by ring
    rw [this, Complex.re_sum]
    exact Finset.sum_congr rfl fun m _ => by rw [Complex.re_mul_ofReal]
  simp only [h2 _ _ _, h3 _ _ _ _, h1, add_assoc, zero_add]
  congr 1
  simp only [Finset.mul_sum, add_mul, Finset.sum_add_distrib, Finset.sum_mul]
  congr 1
  congr 1
  · rw [Finset.sum_comm]
  · rw [Finset.sum_comm]
    exact Finset.sum_congr rfl fun _ _ => Finset.sum_congr rfl fun _ _ => by ring

theorem seq_sum (q : Fin n → ℝ) (k : ℕ) : seq s q J k = fun i j => ∑ m, q m * seq s (unit m) J k i j := by
  induction k with
  | zero => funext i j; simp [seq]
  | succ k ih =>
    rw [seq_succ, ih]
    have := next_sum s Finset.univ q unit (fun m => seq s (unit m) J k)
    rw [sum_unit] at this
    rw [this]
    simp only [seq_succ]

/-! ### Theorems -/

/-- **C74**.  Let `R` be the resistances of `thermal_resistances` with multipoles.  If its `n` iterations converged, then for all heat flows
`T_b + R q` are the fluid temperatures of converged multipoles, that is of a field with the boundary conditions of C65 and C67. -/
theorem resist_superposition (s : Sec n) (J : ℕ) (hJ : 0 < J) (Tb : ℝ) (q : Fin n → ℝ)
    (hconv : ∀ m, s.next (unit m) (s.poles (unit m) J (1 / 10 ^ 5) 100).P = (s.poles (unit m) J (1 / 10 ^ 5) 100).P) :
    ∃ P : Fin n → Fin J → ℂ, s.next q P = P ∧ ∀ i, s.fluid Tb q P i = Tb + ∑ m, s.resist J i m * q m := by
  refine ⟨fun i j => ∑ m, q m * (s.poles (unit m) J (1 / 10 ^ 5) 100).P i j, ?_, fun i => ?_⟩
  · have := next_sum s Finset.univ q unit fun m => (s.poles (unit m) J (1 / 10 ^ 5) 100).P
    rw [sum_unit] at this
    rw [this]
    simp only [hconv]
  · rw [fluid_sum]
    refine congrArg _ (Finset.sum_congr rfl fun m _ => ?_)
    unfold Sec.resist Sec.multipole
    rw [if_neg (by exact_mod_cast hJ.ne')]
    rfl

/-- **C74** (line sources).  Without multipoles the fluid temperatures of `multipole` are `T_b + R q`. -/
theorem resist_zero (s : Sec n) (h : s.Ok) (Tb : ℝ) (q : Fin n → ℝ) (eps : ℝ) (itMax : ℕ) (i : Fin n) :
    (s.multipole Tb q 0 eps itMax).1 i = Tb + ∑ m, s.resist 0 i m * q m := by
  have e : s.resist 0 = s.R0 := by unfold Sec.resist; rw [if_pos rfl, line_eq_R0 h]
  rw [e]
  unfold Sec.multipole Sec.fluid
  simp

/-- **C74** (same number of passes).  Where the iterations for the heat flows `q` and those of `thermal_resistances` take the same number of passes, the fluid
temperatures of `multipole` are `T_b + R q`, converged or not. -/
theorem resist_passes (s : Sec n) (J : ℕ) (hJ : 0 < J) (hn : 0 < n) (Tb : ℝ) (q : Fin n → ℝ)
    (hit : ∀ m, (s.poles (unit m) J (1 / 10 ^ 5) 100).it = (s.poles q J (1 / 10 ^ 5) 100).it) (i : Fin n) :
    (s.multipole Tb q J (1 / 10 ^ 5) 100).1 i = Tb + ∑ m, s.resist J i m * q m := by
  have hP : ∀ q, (s.poles q J (1 / 10 ^ 5) 100).P = seq s q J (s.poles q J (1 / 10 ^ 5) 100).it := fun q => by
    obtain ⟨it, d, d0, -, -, h3, h4, -⟩ := stop_partial s q hn hJ (1 / 10 ^ 5) (by norm_num) 100 (by norm_num)
    rw [h3, h4]
  show s.fluid Tb q (s.poles q J (1 / 10 ^ 5) 100).P i = _
  rw [hP q, seq_sum, fluid_sum]
  refine congrArg _ (Finset.sum_congr rfl fun m _ => ?_)
  unfold Sec.resist Sec.multipole
  rw [if_neg (by exact_mod_cast hJ.ne')]
  show _ = s.fluid 0 (unit m) (s.poles (unit m) J (1 / 10 ^ 5) 100).P i * q m
  rw [hP (unit m), hit m]

/-- Non-vacuity: two pipes without multipoles. -/
example (q : Fin 2 → ℝ) : (sampleSec.multipole 10 q 0 (1 / 10 ^ 5) 100).1 0 = 10 + ∑ m, sampleSec.resist 0 0 m * q m :=
  resist_zero sampleSec sampleSec_ok 10 q _ _ 0

/-- Non-vacuity: converged multipoles of a pipe at the centre. -/
example (q : Fin 1 → ℝ) : ∃ P : Fin 1 → Fin 3 → ℂ, centreSec.next q P = P ∧ ∀ i, centreSec.fluid 10 q P i = 10 + ∑ m, centreSec.resist (3 : ℕ) i m * q m :=
  resist_superposition centreSec 3 (by norm_num) 10 q fun m => by rw [centre_poles, centre_next]

end Verif.Pipe.Pole
