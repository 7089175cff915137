import Verif.Pipe.PoleWallProps

/-!
# Property C66: the multipole solution follows rotations and changes of scale of the cross-section
-/

noncomputable section

namespace Verif.Pipe.Pole

open ComplexConjugate Metric Real

variable {n J : ℕ}

/-- The cross-section turned by `ω` and scaled by `l`. -/
def Sec.sim (s : Sec n) (l : ℝ) (ω : ℂ) : Sec n :=
  { s with z := fun i => l * ω * s.z i, r := fun i => l * s.r i, rb := l * s.rb }

/-- Multipoles of the turned cross-section. -/
def rotP (ω : ℂ) (P : Fin n → Fin J → ℂ) : Fin n → Fin J → ℂ := fun i j => ω ^ (j.val + 1) * P i j

section
variable (s : Sec n) {l : ℝ} {ω : ℂ} (hl : 0 < l) (hω : ‖ω‖ = 1)
include hl hω

theorem unit_facts : (l : ℂ) ≠ 0 ∧ ω ≠ 0 ∧ ω * conj ω = 1 ∧ conj ω = ω⁻¹ := by
  have h0 : ω ≠ 0 := by intro hc; rw [hc, norm_zero] at hω; exact zero_ne_one hω
  have h1 : ω * conj ω = 1 := by rw [Complex.mul_conj, Complex.normSq_eq_norm_sq, hω]; norm_num
  exact ⟨by exact_mod_cast hl.ne', h0, h1, eq_inv_of_mul_eq_one_right h1⟩

theorem sim_conj (i : Fin n) : conj ((s.sim l ω).z i) = l * ω⁻¹ * conj (s.z i) := by
  obtain ⟨-, -, -, h⟩ := unit_facts hl hω
  show conj (l * ω * s.z i) = _
  rw [map_mul, map_mul, Complex.conj_ofReal, h]

omit hl hω in
theorem sim_dz (m i : Fin n) : (s.sim l ω).z m - (s.sim l ω).z i = l * ω * (s.z m - s.z i) := by
  show l * ω * s.z m - l * ω * s.z i = _
  ring

theorem sim_zz (m i : Fin n) : ((s.sim l ω).rb : ℂ) ^ 2 - (s.sim l ω).z m * conj ((s.sim l ω).z i) = (l : ℂ) ^ 2 * ((s.rb : ℂ) ^ 2 - s.z m * conj (s.z i)) := by
  obtain ⟨-, h0, -, -⟩ := unit_facts hl hω
  rw [sim_conj s hl hω]
  show ((l * s.rb : ℝ) : ℂ) ^ 2 - l * ω * s.z m * _ = _
  push_cast
  field_simp

omit hl hω in
theorem alg4 {l ω : ℂ} (hl : l ≠ 0) (hω : ω ≠ 0) (X rm ri z zc Pc σ C D : ℂ) (a b p : ℕ) :
    σ * C * D * (l * rm) ^ (a + p) * (l * ω * z) ^ b * ((((l ^ 2) ^ (a + b + p))⁻¹ * X) * (((ω⁻¹) ^ (b + p) * Pc) * (l * ri) ^ (b + p) * (l * ω⁻¹ * zc) ^ a))
      = (ω⁻¹) ^ (a + p) * (σ * C * D * rm ^ (a + p) * z ^ b) * (X * (Pc * ri ^ (b + p) * zc ^ a)) := by
  have e1 : l ^ (a + p) * l ^ b * ((l ^ 2) ^ (a + b + p))⁻¹ * l ^ (b + p) * l ^ a = 1 := by
    have : (l ^ 2) ^ (a + b + p) = l ^ (a + p) * l ^ b * l ^ (b + p) * l ^ a := by
      rw [← pow_mul, ← pow_add, ← pow_add, ← pow_add]; congr 1; ring
    rw [this]
    field_simp
  have e2 : ω ^ b * (ω⁻¹) ^ (b + p) * (ω⁻¹) ^ a = (ω⁻¹) ^ (a + p) := by
    rw [pow_add, pow_add, inv_pow, inv_pow, inv_pow]
    field_simp
  simp only [mul_pow l, mul_pow (l * ω), mul_pow (l * ω⁻¹)]
  rw [← e2]
  calc _ = (l ^ (a + p) * l ^ b * ((l ^ 2) ^ (a + b + p))⁻¹ * l ^ (b + p) * l ^ a) *
        ((ω ^ b * (ω⁻¹) ^ (b + p) * (ω⁻¹) ^ a) * (σ * C * D * rm ^ (a + p) * z ^ b) * (X * (Pc * ri ^ (b + p) * zc ^ a))) := by ring
    _ = _ := by rw [e1, one_mul]

/-- Multipole coefficients turn with the cross-section. -/
theorem F_sim (q : Fin n → ℝ) (P : Fin n → Fin J → ℂ) (m : Fin n) (k : Fin J) :
    (s.sim l ω).F q (rotP ω P) m k = (ω⁻¹) ^ (k.val + 1) * s.F q P m k := by
  obtain ⟨hl0, h0, -, hcj⟩ := unit_facts hl hω
  have hr : ∀ i, ((s.sim l ω).r i : ℂ) = l * s.r i := fun i => by
    show ((l * s.r i : ℝ) : ℂ) = _; push_cast; rfl
  have hpk : (s.sim l ω).pikg = s.pikg := rfl
  have hsg : (s.sim l ω).sigma = s.sigma := rfl
  have hz : ∀ i, (s.sim l ω).z i = l * ω * s.z i := fun _ => rfl
  unfold Sec.F
  simp only [sim_dz s, sim_zz s hl hω]
  simp only [sim_conj s hl hω]
  simp only [hr, hpk, hsg, hz]
  rw [mul_add, mul_add]
  congr 1
  · congr 1
    · rw [← mul_assoc, Finset.mul_sum, Finset.mul_sum]
      refine Finset.sum_congr rfl fun i _ => ?_
      by_cases hi : m = i
      · rw [if_pos hi, if_pos hi, mul_zero, mul_zero]
      · rw [if_neg hi, if_neg hi]
        have e : -(l * ω * (s.z m - s.z i)) = l * ω * -(s.z m - s.z i) := by ring
        rw [e, mul_pow (l * ω : ℂ), one_div, one_div, mul_inv]
        generalize ((-(s.z m - s.z i)) ^ (k.val + 1))⁻¹ = X
        rw [mul_pow, mul_pow, inv_pow]
        field_simp
    · rw [← mul_assoc, Finset.mul_sum, Finset.mul_sum]
      refine Finset.sum_congr rfl fun i _ => ?_
      rw [mul_pow ((l : ℂ) ^ 2), one_div, one_div, mul_inv]
      generalize (((s.rb : ℂ) ^ 2 - s.z m * conj (s.z i)) ^ (k.val + 1))⁻¹ = X
      rw [mul_pow, mul_pow, mul_pow, inv_pow, ← pow_mul]
      have e : (l : ℂ) ^ (2 * (k.val + 1)) = l ^ (k.val + 1) * l ^ (k.val + 1) := by rw [← pow_add]; congr 1; ring
      rw [e]
      field_simp
  · rw [Finset.mul_sum]
    refine Finset.sum_congr rfl fun j _ => ?_
    rw [mul_add]
    congr 1
    · rw [← mul_assoc, Finset.mul_sum, Finset.mul_sum]
      refine Finset.sum_congr rfl fun i _ => ?_
      by_cases hi : m = i
      · rw [if_pos hi, if_pos hi, mul_zero, mul_zero]
      · rw [if_neg hi, if_neg hi]
        rw [mul_pow (l * ω : ℂ), one_div, one_div, mul_inv]
        generalize ((s.z m - s.z i) ^ (j.val + k.val + 2))⁻¹ = X
        unfold rotP
        have e : -((l : ℂ) * s.r m) = l * -(s.r m) := by ring
        have e2 : ((l : ℂ) * ω) ^ (j.val + k.val + 2) = l ^ (j.val + 1) * l ^ (k.val + 1) * (ω ^ (j.val + 1) * ω ^ (k.val + 1)) := by
          rw [mul_pow, ← pow_add, ← pow_add]; congr 2 <;> ring
        rw [e, e2, mul_pow, mul_pow, inv_pow]
        field_simp
    · rw [Finset.mul_sum]
      refine Finset.sum_congr rfl fun p hp => ?_
      have hp1 : p ≤ k.val + 1 ∧ p ≤ j.val + 1 := by
        have := Finset.mem_range.mp hp; omega
      rw [← mul_assoc, Finset.mul_sum, Finset.mul_sum]
      refine Finset.sum_congr rfl fun i _ => ?_
      rw [mul_pow ((l : ℂ) ^ 2), one_div, one_div, mul_inv]
      generalize (((s.rb : ℂ) ^ 2 - s.z m * conj (s.z i)) ^ (k.val + j.val + 2 - p))⁻¹ = X
      unfold rotP
      obtain ⟨a, ha⟩ : ∃ a, k.val + 1 = a + p := ⟨k.val + 1 - p, by omega⟩
      obtain ⟨b, hb⟩ : ∃ b, j.val + 1 = b + p := ⟨j.val + 1 - p, by omega⟩
      have e1 : k.val + 1 - p = a := by omega
      have e2 : j.val + 1 - p = b := by omega
      have e3 : k.val + j.val + 2 - p = a + b + p := by omega
      rw [map_mul, map_pow, hcj, e1, e2, e3, ha, hb]
      exact alg4 hl0 h0 _ _ _ _ _ _ _ _ _ a b p

theorem next_sim (q : Fin n → ℝ) (P : Fin n → Fin J → ℂ) : (s.sim l ω).next q (rotP ω P) = rotP ω (s.next q P) := by
  obtain ⟨-, -, -, hcj⟩ := unit_facts hl hω
  funext m k
  show ((s.sim l ω).coeff m k : ℂ) * conj ((s.sim l ω).F q (rotP ω P) m k) = ω ^ (k.val + 1) * ((s.coeff m k : ℂ) * conj (s.F q P m k))
  rw [F_sim s hl hω, map_mul, map_pow, map_inv₀, hcj, inv_inv]
  show (s.coeff m k : ℂ) * _ = _
  ring

omit hl in
theorem diff_sim (P P' : Fin n → Fin J → ℂ) : diff (rotP ω P) (rotP ω P') = diff P P' := by
  have e : ∀ x : Fin n × Fin J, ‖rotP ω P' x.1 x.2 - rotP ω P x.1 x.2‖ = ‖P' x.1 x.2 - P x.1 x.2‖ := fun x => by
    unfold rotP
    rw [← mul_sub, norm_mul, norm_pow, hω, one_pow, one_mul]
  unfold diff
  simp only [e]

/-- Loop state of the turned cross-section. -/
def Iter.rot (ω : ℂ) (x : Iter n J) : Iter n J := { x with P := rotP ω x.P }

theorem pass_sim (q : Fin n → ℝ) (x : Iter n J) : (s.sim l ω).pass q (x.rot ω) = (s.pass q x).rot ω := by
  unfold Sec.pass Iter.rot
  dsimp only
  rw [next_sim s hl hω, diff_sim hω]

theorem iterate_sim (q : Fin n → ℝ) (eps : ℝ) (k : ℕ) (x : Iter n J) :
    (s.sim l ω).iterate q eps k (x.rot ω) = (s.iterate q eps k x).rot ω := by
  induction k generalizing x with
  | zero => rfl
  | succ k ih =>
    unfold Sec.iterate
    have e : (x.rot ω).err = x.err := rfl
    rw [e]
    split_ifs
    · rw [pass_sim s hl hω, ih]
    · rfl

theorem poles_sim (q : Fin n → ℝ) (J : ℕ) (eps : ℝ) (itMax : ℕ) :
    (s.sim l ω).poles q J eps itMax = (s.poles q J eps itMax).rot ω := by
  have e : (⟨fun _ _ => 0, 0, 0, 10 ^ 99⟩ : Iter n J) = (⟨fun _ _ => 0, 0, 0, 10 ^ 99⟩ : Iter n J).rot ω := by
    unfold Iter.rot rotP
    simp
  unfold Sec.poles
  split_ifs
  · rw [e, iterate_sim s hl hω]; rw [← e]
  · exact e

theorem R0_sim (i j : Fin n) : (s.sim l ω).R0 i j = s.R0 i j := by
  obtain ⟨hl0, h0, -, hcj⟩ := unit_facts hl hω
  unfold Sec.R0
  have hn : ∀ w : ℂ, ‖(l : ℂ) * ω * w‖ = l * ‖w‖ := fun w => by
    rw [norm_mul, norm_mul, hω, mul_one, Complex.norm_real, Real.norm_of_nonneg hl.le]
  by_cases hij : i = j
  · rw [if_pos hij, if_pos hij]
    show s.pikg * (log (l * s.rb / (l * s.r i)) + s.beta i + s.sigma * log ((l * s.rb) ^ 2 / ((l * s.rb) ^ 2 - ‖(l : ℂ) * ω * s.z i‖ ^ 2))) = _
    rw [hn, mul_div_mul_left _ _ hl.ne']
    have e : (l * s.rb) ^ 2 / ((l * s.rb) ^ 2 - (l * ‖s.z i‖) ^ 2) = s.rb ^ 2 / (s.rb ^ 2 - ‖s.z i‖ ^ 2) := by
      rw [mul_pow, mul_pow, ← mul_sub, mul_div_mul_left _ _ (pow_ne_zero 2 hl.ne')]
    rw [e]
  · rw [if_neg hij, if_neg hij, sim_dz s, hn]
    have e : ‖((s.sim l ω).rb : ℂ) ^ 2 - conj ((s.sim l ω).z i) * (s.sim l ω).z j‖ = l ^ 2 * ‖(s.rb : ℂ) ^ 2 - conj (s.z i) * s.z j‖ := by
      rw [mul_comm, sim_zz s hl hω, norm_mul, norm_pow, Complex.norm_real, Real.norm_of_nonneg hl.le, mul_comm (s.z j)]
    rw [e]
    show s.pikg * (log (l * s.rb / (l * ‖s.z i - s.z j‖)) + s.sigma * log ((l * s.rb) ^ 2 / (l ^ 2 * _))) = _
    rw [mul_div_mul_left _ _ hl.ne', mul_pow, mul_div_mul_left _ _ (pow_ne_zero 2 hl.ne')]

theorem fluid_sim (Tb : ℝ) (q : Fin n → ℝ) (P : Fin n → Fin J → ℂ) (m : Fin n) : (s.sim l ω).fluid Tb q (rotP ω P) m = s.fluid Tb q P m := by
  obtain ⟨hl0, h0, -, hcj⟩ := unit_facts hl hω
  have hr : ∀ i, ((s.sim l ω).r i : ℂ) = l * s.r i := fun i => by
    show ((l * s.r i : ℝ) : ℂ) = _; push_cast; rfl
  unfold Sec.fluid
  congr 1
  · congr 1
    exact Finset.sum_congr rfl fun i _ => by rw [R0_sim s hl hω]
  · refine Finset.sum_congr rfl fun j _ => ?_
    congr 1
    · congr 1
      refine Finset.sum_congr rfl fun i _ => ?_
      by_cases hi : m = i
      · rw [if_pos hi, if_pos hi]
      · rw [if_neg hi, if_neg hi, sim_dz s, hr]
        unfold rotP
        rw [mul_pow (l * ω : ℂ), one_div, one_div, mul_inv]
        generalize ((s.z m - s.z i) ^ (j.val + 1))⁻¹ = X
        rw [mul_pow, mul_pow]
        field_simp
    · show s.sigma * _ = s.sigma * _
      congr 2
      rw [Finset.mul_sum, Finset.mul_sum]
      refine Finset.sum_congr rfl fun i _ => ?_
      rw [mul_comm (conj ((s.sim l ω).z m)) ((s.sim l ω).z i), sim_zz s hl hω, hr, sim_conj s hl hω, mul_comm (s.z i)]
      unfold rotP
      rw [mul_pow ((l : ℂ) ^ 2), one_div, one_div, mul_inv]
      generalize (((s.rb : ℂ) ^ 2 - conj (s.z m) * s.z i) ^ (j.val + 1))⁻¹ = X
      have e : ((l : ℂ) ^ 2) ^ (j.val + 1) = l ^ (j.val + 1) * l ^ (j.val + 1) := by rw [← pow_mul, ← pow_add]; congr 1; ring
      rw [e, mul_pow, mul_pow, mul_pow, inv_pow]
      field_simp

theorem field_sim (Tb : ℝ) (q : Fin n → ℝ) (P : Fin n → Fin J → ℂ) (Tf : Fin n → ℝ) (w : ℂ) :
    (s.sim l ω).field Tb q (rotP ω P) Tf (l * ω * w) = s.field Tb q P Tf w := by
  obtain ⟨hl0, h0, -, hcj⟩ := unit_facts hl hω
  have hn : ∀ w : ℂ, ‖(l : ℂ) * ω * w‖ = l * ‖w‖ := fun w => by
    rw [norm_mul, norm_mul, hω, mul_one, Complex.norm_real, Real.norm_of_nonneg hl.le]
  have hdz : ∀ i, (l : ℂ) * ω * w - (s.sim l ω).z i = l * ω * (w - s.z i) := fun i => by
    show l * ω * w - l * ω * s.z i = _; ring
  have hr : ∀ i, ((s.sim l ω).r i : ℂ) = l * s.r i := fun i => by
    show ((l * s.r i : ℝ) : ℂ) = _; push_cast; rfl
  have hrb : ((s.sim l ω).rb : ℂ) = l * s.rb := by
    show ((l * s.rb : ℝ) : ℂ) = _; push_cast; rfl
  have hcw : conj ((l : ℂ) * ω * w) = l * ω⁻¹ * conj w := by rw [map_mul, map_mul, Complex.conj_ofReal, hcj]
  have hzz : ∀ i, ((s.sim l ω).rb : ℂ) ^ 2 - (s.sim l ω).z i * conj ((l : ℂ) * ω * w) = (l : ℂ) ^ 2 * ((s.rb : ℂ) ^ 2 - s.z i * conj w) := fun i => by
    rw [hcw, hrb]
    show _ - l * ω * s.z i * _ = _
    field_simp
  have hpipe : (s.sim l ω).inPipe (l * ω * w) = s.inPipe w := by
    funext i
    unfold Sec.inPipe
    rw [hdz, hn]
    show decide (l * ‖w - s.z i‖ / (l * s.r i) < 1) = _
    rw [mul_div_mul_left _ _ hl.ne']
  have hle : ‖(l : ℂ) * ω * w‖ ≤ (s.sim l ω).rb ↔ ‖w‖ ≤ s.rb := by
    rw [hn]
    exact mul_le_mul_iff_of_pos_left hl
  have n1 : ∀ i, ‖((s.sim l ω).rb : ℂ) / ((l : ℂ) * ω * w - (s.sim l ω).z i)‖ = ‖(s.rb : ℂ) / (w - s.z i)‖ := fun i => by
    rw [hdz, hrb, norm_div, hn, norm_div, norm_mul, Complex.norm_real, Real.norm_of_nonneg hl.le, mul_div_mul_left _ _ hl.ne']
  have n2 : ∀ i, ‖((s.sim l ω).rb : ℂ) ^ 2 / (((s.sim l ω).rb : ℂ) ^ 2 - (s.sim l ω).z i * conj ((l : ℂ) * ω * w))‖ =
      ‖(s.rb : ℂ) ^ 2 / ((s.rb : ℂ) ^ 2 - s.z i * conj w)‖ := fun i => by
    rw [hzz, hrb, mul_pow, mul_div_mul_left _ _ (pow_ne_zero 2 hl0)]
  have n3 : ‖((s.sim l ω).rb : ℂ) / ((l : ℂ) * ω * w)‖ = ‖(s.rb : ℂ) / w‖ := by
    rw [hrb, norm_div, hn, norm_div, norm_mul, Complex.norm_real, Real.norm_of_nonneg hl.le, mul_div_mul_left _ _ hl.ne']
  have w0 : ∀ i, ((s.sim l ω).W0 (l * ω * w) i).re = (s.W0 w i).re := fun i => by
    by_cases hb : ‖w‖ ≤ s.rb
    · rw [W0_re hb, W0_re (hle.mpr hb), n1, n2]; rfl
    · rw [W0_re_out hb, W0_re_out (fun hc => hb (hle.mp hc)), n1, n3]; rfl
  have p1 : ∀ i (j : Fin J), rotP ω P i j * (((s.sim l ω).r i : ℂ) / ((l : ℂ) * ω * w - (s.sim l ω).z i)) ^ (j.val + 1) = P i j * (s.r i / (w - s.z i)) ^ (j.val + 1) := fun i j => by
    unfold rotP
    rw [hdz, hr, div_eq_mul_inv, mul_inv, div_eq_mul_inv]
    generalize (w - s.z i)⁻¹ = X
    simp only [mul_pow, mul_inv, inv_pow]
    field_simp
  have p2 : ∀ i (j : Fin J), rotP ω P i j * ((((s.sim l ω).r i : ℂ) * conj ((l : ℂ) * ω * w)) / (((s.sim l ω).rb : ℂ) ^ 2 - (s.sim l ω).z i * conj ((l : ℂ) * ω * w))) ^ (j.val + 1)
      = P i j * ((s.r i * conj w) / ((s.rb : ℂ) ^ 2 - s.z i * conj w)) ^ (j.val + 1) := fun i j => by
    unfold rotP
    rw [hzz, hr, hcw, div_eq_mul_inv, mul_inv, div_eq_mul_inv]
    generalize ((s.rb : ℂ) ^ 2 - s.z i * conj w)⁻¹ = X
    have e : (l : ℂ) * s.r i * (l * ω⁻¹ * conj w) * (((l : ℂ) ^ 2)⁻¹ * X) = ω⁻¹ * (s.r i * conj w * X) := by field_simp
    rw [e, mul_pow ω⁻¹, inv_pow]
    field_simp
  have wJ : ∀ i (j : Fin J), (rotP ω P i j * (s.sim l ω).WJ (l * ω * w) i j).re = (P i j * s.WJ w i j).re := fun i j => by
    by_cases hb : ‖w‖ ≤ s.rb
    · rw [WJ_re hb, WJ_re (hle.mpr hb), p1, p2]; rfl
    · rw [WJ_re_out hb, WJ_re_out (fun hc => hb (hle.mp hc)), p1]; rfl
  unfold Sec.field
  rw [hpipe]
  split
  · rfl
  · congr 1
    rw [Complex.add_re, Complex.add_re, Complex.re_sum, Complex.re_sum, Complex.re_sum, Complex.re_sum]
    congr 1
    · refine Finset.sum_congr rfl fun i _ => ?_
      rw [← Complex.ofReal_mul, ← Complex.ofReal_mul, Complex.re_ofReal_mul, Complex.re_ofReal_mul, w0]; rfl
    · refine Finset.sum_congr rfl fun i _ => ?_
      rw [Complex.re_sum, Complex.re_sum]
      exact Finset.sum_congr rfl fun j _ => wJ i j

end

/-- **C66.**  When the cross-section is turned about the centre of the borehole and scaled, the returned fluid temperatures, number of iterations and error
do not change, and the temperatures turn and scale with the cross-section. -/
theorem multipole_similar (s : Sec n) (l : ℝ) (hl : 0 < l) (ω : ℂ) (hω : ‖ω‖ = 1) (Tb : ℝ) (q : Fin n → ℝ) (J : ℕ) (eps : ℝ) (itMax : ℕ) :
    ((s.sim l ω).multipole Tb q J eps itMax).1 = (s.multipole Tb q J eps itMax).1 ∧
    (∀ w, ((s.sim l ω).multipole Tb q J eps itMax).2.1 (l * ω * w) = (s.multipole Tb q J eps itMax).2.1 w) ∧
    ((s.sim l ω).multipole Tb q J eps itMax).2.2 = (s.multipole Tb q J eps itMax).2.2 := by
  have hf : (s.sim l ω).fluid Tb q ((s.poles q J eps itMax).rot ω).P = s.fluid Tb q (s.poles q J eps itMax).P := by
    funext m; exact fluid_sim s hl hω Tb q _ m
  unfold Sec.multipole
  dsimp only
  rw [poles_sim s hl hω, hf]
  exact ⟨rfl, fun w => field_sim s hl hω Tb q _ _ w, rfl⟩

/-- **C66** (resistances).  `thermal_resistances` does not depend on the orientation and scale of the cross-section. -/
theorem resist_similar (s : Sec n) (h : s.Ok) (l : ℝ) (hl : 0 < l) (ω : ℂ) (hω : ‖ω‖ = 1) (J : ℤ) : (s.sim l ω).resistances J = s.resistances J := by
  have e : (s.sim l ω).resist J = s.resist J := by
    have hok : (s.sim l ω).Ok := by
      refine ⟨mul_pos hl h.rb, h.kg, fun i => ?_⟩
      show ‖(l : ℂ) * ω * s.z i‖ < l * s.rb
      rw [norm_mul, norm_mul, hω, mul_one, Complex.norm_real, Real.norm_of_nonneg hl.le]
      exact mul_lt_mul_of_pos_left (h.inside i) hl
    unfold Sec.resist
    split_ifs
    · rw [line_eq_R0 h, line_eq_R0 hok]
      funext i j
      exact R0_sim s hl hω i j
    · congr 1
      funext i m
      rw [(multipole_similar s l hl ω hω 0 _ J.toNat (1 / 10 ^ 5) 100).1]
  unfold Sec.resistances
  rw [e]

/-- Non-vacuity: a quarter turn of the sample borehole. -/
example : (sampleSec.sim 2 Complex.I).resistances 2 = sampleSec.resistances 2 :=
  resist_similar sampleSec sampleSec_ok 2 (by norm_num) Complex.I (by simp) 2

end Verif.Pipe.Pole
