import Verif.Pipe.PoleFourier

/-!
# The temperature field around one pipe

Around pipe `m`, with `x = (w - z_m) / r_m`, the field is the line source and the multipoles of the pipe plus the real part of a holomorphic function
(`Loc.reg`), whose Fourier coefficients on the perimeter are the `_F_mk` of the code.
-/

noncomputable section

namespace Verif.Pipe.Pole

open ComplexConjugate Metric Real

variable {n J : ℕ}

/-- Pipe `m` touches neither the wall of the borehole nor another pipe. -/
structure Sec.Free (s : Sec n) (m : Fin n) : Prop where
  inside : ‖s.z m‖ + s.r m < s.rb
  apart : ∀ i, m ≠ i → s.r m + s.r i < ‖s.z m - s.z i‖

def Sec.rho (s : Sec n) (m i : Fin n) : ℂ := s.r m / (s.z i - s.z m)
def Sec.D (s : Sec n) (m i : Fin n) : ℂ := (s.rb : ℂ) ^ 2 - s.z m * conj (s.z i)
def Sec.tau (s : Sec n) (m i : Fin n) : ℂ := conj (s.z i) * s.r m / s.D m i

theorem Sec.Geo.D_ne {s : Sec n} (h : s.Geo) (m i : Fin n) : s.D m i ≠ 0 := image_ne' (h.lt m) (h.lt i).le

theorem Sec.Free.rho_lt {s : Sec n} (h : s.Geo) {m : Fin n} (hf : s.Free m) {i : Fin n} (hi : m ≠ i) : ‖s.rho m i‖ < 1 := by
  unfold Sec.rho
  have h1 := hf.apart i hi
  have h2 := h.r i; have h3 := h.r m
  rw [norm_div, Complex.norm_real, Real.norm_of_nonneg h3.le, norm_sub_rev, div_lt_one (by linarith)]
  linarith

theorem Sec.Geo.tau_lt {s : Sec n} (h : s.Geo) (m i : Fin n) : ‖s.tau m i‖ < 1 := by
  unfold Sec.tau
  have h1 := h.inside m
  have h2 := h.lt i
  have h3 := h.r m
  have h4 := norm_nonneg (s.z i)
  have h5 := norm_nonneg (s.z m)
  have h6 : s.rb ^ 2 - ‖s.z m‖ * ‖s.z i‖ ≤ ‖s.D m i‖ := by
    have := norm_sub_norm_le ((s.rb : ℂ) ^ 2) (s.z m * conj (s.z i))
    rw [norm_pow, Complex.norm_real, Real.norm_of_nonneg h.rb.le, norm_mul, RCLike.norm_conj] at this
    exact this
  have h7 : 0 < ‖s.D m i‖ := norm_pos_iff.mpr (h.D_ne m i)
  rw [norm_div, norm_mul, RCLike.norm_conj, Complex.norm_real, Real.norm_of_nonneg h3.le, div_lt_one h7]
  nlinarith [h.rb]

/-- The regular part of the field around pipe `m`. -/
def Sec.reg (s : Sec n) (q : Fin n → ℝ) (P : Fin n → Fin J → ℂ) (m : Fin n) (x : ℂ) : ℂ :=
  (∑ i, if m = i then 0 else
      (-(q i * s.pikg : ℝ) : ℂ) * lg (s.rho m i) x + ∑ j : Fin J, (P i j * (s.r i / (s.z m - s.z i)) ^ (j.val + 1)) * geo (s.rho m i) j.val x)
  + s.sigma * ∑ i, ((-(q i * s.pikg : ℝ) : ℂ) * lg (s.tau m i) x
      + ∑ j : Fin J, (conj (P i j) * (s.r i / s.D m i) ^ (j.val + 1)) * ((s.z m + s.r m * x) ^ (j.val + 1) * geo (s.tau m i) j.val x))

/-- Points around pipe `m` where the regular part is holomorphic. -/
def Sec.near (s : Sec n) (m : Fin n) : Set ℂ := {x | ∀ i, m ≠ i → ‖x * s.rho m i‖ < 1} ∩ {x | ∀ i, ‖x * s.tau m i‖ < 1}

theorem Sec.near_open (s : Sec n) (m : Fin n) : IsOpen (s.near m) := by
  unfold Sec.near
  refine IsOpen.inter ?_ ?_
  · rw [Set.ofPred_forall]
    refine isOpen_iInter_of_finite fun i => ?_
    rw [Set.ofPred_forall]
    exact isOpen_iInter_of_finite fun _ => isOpen_lt (by fun_prop) (by fun_prop)
  · rw [Set.ofPred_forall]
    exact isOpen_iInter_of_finite fun i => isOpen_lt (by fun_prop) (by fun_prop)

theorem Sec.Free.disc {s : Sec n} (h : s.Geo) {m : Fin n} (hf : s.Free m) : closedBall (0 : ℂ) |(1 : ℝ)| ⊆ s.near m := by
  intro x hx
  rw [abs_one, mem_closedBall, dist_zero_right] at hx
  have key : ∀ τ : ℂ, ‖τ‖ < 1 → ‖x * τ‖ < 1 := fun τ hτ => by
    rw [norm_mul]
    have := norm_nonneg x; have := norm_nonneg τ
    nlinarith
  exact ⟨fun i hi => key _ (hf.rho_lt h hi), fun i => key _ (h.tau_lt m i)⟩

theorem slit_of_lt {u : ℂ} (h : ‖u‖ < 1) : 1 - u ∈ Complex.slitPlane := by
  left
  have := Complex.re_le_norm u
  rw [Complex.sub_re, Complex.one_re]
  linarith

theorem lg_diff {τ x : ℂ} (h : ‖x * τ‖ < 1) : DifferentiableAt ℂ (lg τ) x :=
  DifferentiableAt.clog (by fun_prop) (slit_of_lt h)

theorem geo_diff {τ x : ℂ} (h : ‖x * τ‖ < 1) (j : ℕ) : DifferentiableAt ℂ (geo τ j) x :=
  DifferentiableAt.inv (by fun_prop) (pow_ne_zero _ (Complex.slitPlane_ne_zero (slit_of_lt h)))

theorem Sec.reg_diff (s : Sec n) (q : Fin n → ℝ) (P : Fin n → Fin J → ℂ) (m : Fin n) {x : ℂ} (hx : x ∈ s.near m) : DifferentiableAt ℂ (s.reg q P m) x := by
  unfold Sec.reg
  refine DifferentiableAt.add (DifferentiableAt.fun_sum fun i _ => ?_) (DifferentiableAt.const_mul (DifferentiableAt.fun_sum fun i _ => ?_) _)
  · by_cases hi : m = i
    · simp only [if_pos hi]; exact differentiableAt_const _
    · simp only [if_neg hi]
      exact DifferentiableAt.add ((lg_diff (hx.1 i hi)).const_mul _) (DifferentiableAt.fun_sum fun j _ => (geo_diff (hx.1 i hi) _).const_mul _)
  · refine DifferentiableAt.add ((lg_diff (hx.2 i)).const_mul _) (DifferentiableAt.fun_sum fun j _ => ?_)
    exact DifferentiableAt.const_mul (DifferentiableAt.mul (by fun_prop) (geo_diff (hx.2 i) _)) _

theorem Sec.Free.reg_hd {s : Sec n} (h : s.Geo) {m : Fin n} (hf : s.Free m) (q : Fin n → ℝ) (P : Fin n → Fin J → ℂ) : Hd (s.reg q P m) :=
  fun _ hx => s.reg_diff q P m (hf.disc h hx)

theorem Sec.Free.reg_deriv {s : Sec n} (h : s.Geo) {m : Fin n} (hf : s.Free m) (q : Fin n → ℝ) (P : Fin n → Fin J → ℂ) : Hd (deriv (s.reg q P m)) := by
  intro x hx
  have h1 : DifferentiableOn ℂ (s.reg q P m) (s.near m) := fun y hy => (s.reg_diff q P m hy).differentiableWithinAt
  exact (h1.deriv (s.near_open m)).differentiableAt ((s.near_open m).mem_nhds (hf.disc h hx))

/-- The Fourier coefficients of the regular part are the `_F_mk`. -/
theorem Sec.Free.har_reg {s : Sec n} (h : s.Geo) {m : Fin n} (hf : s.Free m) (q : Fin n → ℝ) (P : Fin n → Fin J → ℂ) (k : Fin J) :
    har (s.reg q P m) (k.val + 1) = s.F q P m k := by
  have hk : ((k.val : ℂ) + 1) ≠ 0 := by exact_mod_cast Nat.succ_ne_zero k.val
  have hA : ∀ i, Hd (fun x => if m = i then 0 else
      (-(q i * s.pikg : ℝ) : ℂ) * lg (s.rho m i) x + ∑ j : Fin J, (P i j * (s.r i / (s.z m - s.z i)) ^ (j.val + 1)) * geo (s.rho m i) j.val x) := fun i x hx => by
    by_cases hi : m = i
    · simp only [if_pos hi]; exact differentiableAt_const _
    · simp only [if_neg hi]
      have := (hf.disc h hx).1 i hi
      exact DifferentiableAt.add ((lg_diff this).const_mul _) (DifferentiableAt.fun_sum fun j _ => (geo_diff this _).const_mul _)
  have hB1 : ∀ i, Hd (fun x => (-(q i * s.pikg : ℝ) : ℂ) * lg (s.tau m i) x) := fun i x hx => (lg_diff ((hf.disc h hx).2 i)).const_mul _
  have hB2 : ∀ i (j : Fin J), Hd (fun x => (conj (P i j) * (s.r i / s.D m i) ^ (j.val + 1)) * ((s.z m + s.r m * x) ^ (j.val + 1) * geo (s.tau m i) j.val x)) :=
    fun i j x hx => DifferentiableAt.const_mul (DifferentiableAt.mul (by fun_prop) (geo_diff ((hf.disc h hx).2 i) _)) _
  have hB3 : ∀ i, Hd (fun x => ∑ j : Fin J, (conj (P i j) * (s.r i / s.D m i) ^ (j.val + 1)) * ((s.z m + s.r m * x) ^ (j.val + 1) * geo (s.tau m i) j.val x)) :=
    fun i x hx => DifferentiableAt.fun_sum fun j _ => hB2 i j x hx
  have hB : ∀ i, Hd (fun x => (-(q i * s.pikg : ℝ) : ℂ) * lg (s.tau m i) x
      + ∑ j : Fin J, (conj (P i j) * (s.r i / s.D m i) ^ (j.val + 1)) * ((s.z m + s.r m * x) ^ (j.val + 1) * geo (s.tau m i) j.val x)) :=
    fun i x hx => (hB1 i x hx).add (hB3 i x hx)
  have hSA : Hd (fun x => ∑ i, if m = i then 0 else
      (-(q i * s.pikg : ℝ) : ℂ) * lg (s.rho m i) x + ∑ j : Fin J, (P i j * (s.r i / (s.z m - s.z i)) ^ (j.val + 1)) * geo (s.rho m i) j.val x) :=
    fun x hx => DifferentiableAt.fun_sum fun i _ => hA i x hx
  have hSB : Hd (fun x => (s.sigma : ℂ) * ∑ i, ((-(q i * s.pikg : ℝ) : ℂ) * lg (s.tau m i) x
      + ∑ j : Fin J, (conj (P i j) * (s.r i / s.D m i) ^ (j.val + 1)) * ((s.z m + s.r m * x) ^ (j.val + 1) * geo (s.tau m i) j.val x))) :=
    fun x hx => (DifferentiableAt.fun_sum fun i _ => hB i x hx).const_mul _
  have eA : ∀ i, har (fun x => if m = i then 0 else
      (-(q i * s.pikg : ℝ) : ℂ) * lg (s.rho m i) x + ∑ j : Fin J, (P i j * (s.r i / (s.z m - s.z i)) ^ (j.val + 1)) * geo (s.rho m i) j.val x) (k.val + 1)
      = (s.r m : ℂ) ^ (k.val + 1) * s.pikg / (k.val + 1) * (if m = i then 0 else 1 / (-(s.z m - s.z i)) ^ (k.val + 1) * q i)
        + ∑ j : Fin J, ((j.val + k.val + 1).choose j.val : ℂ) * (-(s.r m : ℂ)) ^ (k.val + 1) *
          (if m = i then 0 else 1 / (s.z m - s.z i) ^ (j.val + k.val + 2) * (P i j * (s.r i : ℂ) ^ (j.val + 1))) := fun i => by
    by_cases hi : m = i
    · simp only [if_pos hi, har_const, mul_zero, Finset.sum_const_zero, add_zero]
    · simp only [if_neg hi]
      have hr := hf.rho_lt h hi
      have hz : s.z m - s.z i ≠ 0 := by
        intro hc; have := hf.apart i hi; rw [hc, norm_zero] at this; linarith [h.r m, h.r i]
      have c1 : Cc (fun x => (-(q i * s.pikg : ℝ) : ℂ) * lg (s.rho m i) x) := ContinuousOn.mul continuousOn_const (lg_hd hr).cc
      have c2 : ∀ j ∈ (Finset.univ : Finset (Fin J)), Cc (fun x => (P i j * (s.r i / (s.z m - s.z i)) ^ (j.val + 1)) * geo (s.rho m i) j.val x) :=
        fun j _ => ContinuousOn.mul continuousOn_const (geo_hd hr _).cc
      have c3 : Cc (fun x => ∑ j : Fin J, (P i j * (s.r i / (s.z m - s.z i)) ^ (j.val + 1)) * geo (s.rho m i) j.val x) := continuousOn_finsetSum _ c2
      rw [har_add c1 c3, har_const_mul, har_lg hr, har_sum _ c2]
      have e0 : s.rho m i = (-(s.r m : ℂ)) / (s.z m - s.z i) := by
        unfold Sec.rho; rw [← neg_sub (s.z m), div_neg, neg_div]
      congr 1
      · have : s.rho m i ^ (k.val + 1) = (s.r m : ℂ) ^ (k.val + 1) / (-(s.z m - s.z i)) ^ (k.val + 1) := by
          unfold Sec.rho; rw [neg_sub, div_pow]
        rw [this]
        push_cast
        ring
      · refine Finset.sum_congr rfl fun j _ => ?_
        rw [har_const_mul, har_geo hr, e0, div_pow, div_pow, ← add_assoc j.val]
        have e1 : (s.z m - s.z i) ^ (j.val + k.val + 2) = (s.z m - s.z i) ^ (j.val + 1) * (s.z m - s.z i) ^ (k.val + 1) := by
          rw [← pow_add]; congr 1; ring
        rw [e1]
        field_simp
  have eB : ∀ i, har (fun x => (-(q i * s.pikg : ℝ) : ℂ) * lg (s.tau m i) x
      + ∑ j : Fin J, (conj (P i j) * (s.r i / s.D m i) ^ (j.val + 1)) * ((s.z m + s.r m * x) ^ (j.val + 1) * geo (s.tau m i) j.val x)) (k.val + 1)
      = (s.r m : ℂ) ^ (k.val + 1) * s.pikg / (k.val + 1) * (1 / s.D m i ^ (k.val + 1) * (q i * conj (s.z i) ^ (k.val + 1)))
        + ∑ j : Fin J, ∑ p ∈ Finset.range (min k.val j.val + 2),
          ((j.val + 1).choose p : ℂ) * ((j.val + k.val + 1 - p).choose j.val : ℂ) * (s.r m : ℂ) ^ (k.val + 1) * s.z m ^ (j.val + 1 - p) *
            (1 / s.D m i ^ (k.val + j.val + 2 - p) * (conj (P i j) * (s.r i : ℂ) ^ (j.val + 1) * conj (s.z i) ^ (k.val + 1 - p))) := fun i => by
    have ht := h.tau_lt m i
    have hD := h.D_ne m i
    rw [har_add (hB1 i).cc (hB3 i).cc, har_const_mul, har_lg ht, har_sum _ fun j _ => (hB2 i j).cc]
    congr 1
    · have : s.tau m i ^ (k.val + 1) = conj (s.z i) ^ (k.val + 1) * (s.r m : ℂ) ^ (k.val + 1) / s.D m i ^ (k.val + 1) := by
        unfold Sec.tau; rw [div_pow, mul_pow]
      rw [this]
      push_cast
      ring
    · refine Finset.sum_congr rfl fun j _ => ?_
      rw [har_const_mul, har_bin ht, Finset.mul_sum]
      have er : min (k.val + 1) (j.val + 1) + 1 = min k.val j.val + 2 := by omega
      rw [er]
      refine Finset.sum_congr rfl fun p hp => ?_
      rw [Finset.mem_range] at hp
      have hpk : p ≤ k.val + 1 := by omega
      have e1 : j.val + (k.val + 1 - p) = j.val + k.val + 1 - p := by omega
      have e2 : s.tau m i ^ (k.val + 1 - p) = conj (s.z i) ^ (k.val + 1 - p) * (s.r m : ℂ) ^ (k.val + 1 - p) / s.D m i ^ (k.val + 1 - p) := by
        unfold Sec.tau; rw [div_pow, mul_pow]
      have e3 : s.D m i ^ (k.val + j.val + 2 - p) = s.D m i ^ (j.val + 1) * s.D m i ^ (k.val + 1 - p) := by
        rw [← pow_add]; congr 1; omega
      have e4 : (s.r m : ℂ) ^ (k.val + 1) = (s.r m : ℂ) ^ p * (s.r m : ℂ) ^ (k.val + 1 - p) := by
        rw [← pow_add]; congr 1; omega
      rw [e1, e2, e3, e4, div_pow]
      field_simp
  have e : har (s.reg q P m) (k.val + 1) = _ := har_add hSA.cc hSB.cc (k.val + 1)
  rw [e, har_sum _ fun i _ => (hA i).cc, har_const_mul, har_sum _ fun i _ => (hB i).cc, Finset.sum_congr rfl fun i _ => eA i,
    Finset.sum_congr rfl fun i _ => eB i]
  rw [Finset.sum_add_distrib, Finset.sum_add_distrib, ← Finset.mul_sum, ← Finset.mul_sum]
  unfold Sec.F
  rw [Finset.sum_add_distrib, mul_add]
  have f1 : ∑ i, ∑ j : Fin J, ((j.val + k.val + 1).choose j.val : ℂ) * (-(s.r m : ℂ)) ^ (k.val + 1) *
          (if m = i then 0 else 1 / (s.z m - s.z i) ^ (j.val + k.val + 2) * (P i j * (s.r i : ℂ) ^ (j.val + 1)))
      = ∑ j : Fin J, ((j.val + k.val + 1).choose j.val : ℂ) * (-(s.r m : ℂ)) ^ (k.val + 1) *
          ∑ i, (if m = i then 0 else 1 / (s.z m - s.z i) ^ (j.val + k.val + 2) * (P i j * (s.r i : ℂ) ^ (j.val + 1))) := by
    rw [Finset.sum_comm]
    exact Finset.sum_congr rfl fun j _ => by rw [Finset.mul_sum]
  have f2 : (s.sigma : ℂ) * ∑ i, ∑ j : Fin J, ∑ p ∈ Finset.range (min k.val j.val + 2),
          ((j.val + 1).choose p : ℂ) * ((j.val + k.val + 1 - p).choose j.val : ℂ) * (s.r m : ℂ) ^ (k.val + 1) * s.z m ^ (j.val + 1 - p) *
            (1 / s.D m i ^ (k.val + j.val + 2 - p) * (conj (P i j) * (s.r i : ℂ) ^ (j.val + 1) * conj (s.z i) ^ (k.val + 1 - p)))
      = ∑ j : Fin J, ∑ p ∈ Finset.range (min k.val j.val + 2),
          s.sigma * ((j.val + 1).choose p : ℂ) * ((j.val + k.val + 1 - p).choose j.val : ℂ) * (s.r m : ℂ) ^ (k.val + 1) * s.z m ^ (j.val + 1 - p) *
            ∑ i, (1 / s.D m i ^ (k.val + j.val + 2 - p) * (conj (P i j) * (s.r i : ℂ) ^ (j.val + 1) * conj (s.z i) ^ (k.val + 1 - p))) := by
    rw [Finset.sum_comm, Finset.mul_sum]
    refine Finset.sum_congr rfl fun j _ => ?_
    rw [Finset.sum_comm, Finset.mul_sum]
    refine Finset.sum_congr rfl fun p _ => ?_
    rw [← Finset.mul_sum]
    ring
  rw [f1, f2]
  unfold Sec.D
  ring

/-- Constant part of the field around pipe `m`. -/
def Sec.c0 (s : Sec n) (Tb : ℝ) (q : Fin n → ℝ) (m : Fin n) : ℝ :=
  Tb + ∑ i, (q i * s.pikg * (if m = i then log (s.rb / s.r m) else log ‖(s.rb : ℂ) / (s.z m - s.z i)‖) + q i * s.pikg * (s.sigma * log ‖(s.rb : ℂ) ^ 2 / s.D m i‖))

/-- The field around pipe `m`. -/
theorem Sec.Free.inF_local {s : Sec n} (h : s.Geo) {m : Fin n} (hf : s.Free m) (Tb : ℝ) (q : Fin n → ℝ) (P : Fin n → Fin J → ℂ) {x : ℂ} (hx : x ∈ s.near m)
    (hx0 : x ≠ 0) :
    s.inF Tb q P (s.z m + s.r m * x) = s.c0 Tb q m - q m * s.pikg * log ‖x‖ + ∑ j : Fin J, (P m j * x⁻¹ ^ (j.val + 1)).re + (s.reg q P m x).re := by
  have hb := h.rb
  have hrm := h.r m
  have hrc : (s.r m : ℂ) ≠ 0 := by exact_mod_cast hrm.ne'
  have hbc : (s.rb : ℂ) ≠ 0 := by exact_mod_cast hb.ne'
  have hz : ∀ i, m ≠ i → s.z m - s.z i ≠ 0 := fun i hi hc => by
    have := hf.apart i hi; rw [hc, norm_zero] at this; linarith [h.r m, h.r i]
  have d1 : ∀ i, m ≠ i → s.z m + s.r m * x - s.z i = (s.z m - s.z i) * (1 - x * s.rho m i) := fun i hi => by
    have h1 := hz i hi
    have h2 : s.z i - s.z m ≠ 0 := fun hc => h1 (by rw [← neg_sub, hc, neg_zero])
    unfold Sec.rho
    field_simp
    ring
  have d2 : ∀ i, conj ((s.rb : ℂ) ^ 2 - s.z i * conj (s.z m + s.r m * x)) = s.D m i * (1 - x * s.tau m i) := fun i => by
    have h1 := h.D_ne m i
    have : s.D m i * (1 - x * s.tau m i) = s.D m i - x * (conj (s.z i) * s.r m) := by
      unfold Sec.tau
      rw [mul_sub, mul_one, mul_left_comm, mul_div_cancel₀ _ h1]
    rw [this]
    unfold Sec.D
    simp only [map_sub, map_mul, map_pow, map_add, Complex.conj_conj, Complex.conj_ofReal]
    ring
  have s1 : ∀ i, m ≠ i → 1 - x * s.rho m i ≠ 0 := fun i hi => Complex.slitPlane_ne_zero (slit_of_lt (hx.1 i hi))
  have s2 : ∀ i, 1 - x * s.tau m i ≠ 0 := fun i => Complex.slitPlane_ne_zero (slit_of_lt (hx.2 i))
  have l1 : ∀ i, m ≠ i → log ‖(s.rb : ℂ) / (s.z m + s.r m * x - s.z i)‖ = log ‖(s.rb : ℂ) / (s.z m - s.z i)‖ - (lg (s.rho m i) x).re := fun i hi => by
    unfold lg
    rw [d1 i hi, ← div_div, norm_div, log_div (norm_ne_zero_iff.mpr (div_ne_zero hbc (hz i hi))) (norm_ne_zero_iff.mpr (s1 i hi)), Complex.log_re]
  have l2 : log ‖(s.rb : ℂ) / (s.z m + s.r m * x - s.z m)‖ = log (s.rb / s.r m) - log ‖x‖ := by
    rw [add_sub_cancel_left, ← div_div, norm_div, ← Complex.ofReal_div, Complex.norm_real, Real.norm_of_nonneg (div_pos hb hrm).le,
      log_div (div_pos hb hrm).ne' (norm_ne_zero_iff.mpr hx0)]
  have l3 : ∀ i, log ‖(s.rb : ℂ) ^ 2 / ((s.rb : ℂ) ^ 2 - s.z i * conj (s.z m + s.r m * x))‖ = log ‖(s.rb : ℂ) ^ 2 / s.D m i‖ - (lg (s.tau m i) x).re := fun i => by
    unfold lg
    have : ‖(s.rb : ℂ) ^ 2 / ((s.rb : ℂ) ^ 2 - s.z i * conj (s.z m + s.r m * x))‖ = ‖(s.rb : ℂ) ^ 2 / (s.D m i * (1 - x * s.tau m i))‖ := by
      rw [norm_div, ← RCLike.norm_conj ((s.rb : ℂ) ^ 2 - s.z i * _), d2, norm_div]
    rw [this, ← div_div, norm_div, log_div (norm_ne_zero_iff.mpr (div_ne_zero (pow_ne_zero _ hbc) (h.D_ne m i))) (norm_ne_zero_iff.mpr (s2 i)), Complex.log_re]
  have p1 : ∀ i (j : Fin J), m ≠ i → P i j * (s.r i / (s.z m + s.r m * x - s.z i)) ^ (j.val + 1)
      = (P i j * (s.r i / (s.z m - s.z i)) ^ (j.val + 1)) * geo (s.rho m i) j.val x := fun i j hi => by
    unfold geo
    rw [d1 i hi, ← div_div, div_pow _ (1 - x * s.rho m i), div_eq_mul_inv _ ((1 - x * s.rho m i) ^ _)]
    ring
  have p2 : ∀ j : Fin J, P m j * (s.r m / (s.z m + s.r m * x - s.z m)) ^ (j.val + 1) = P m j * x⁻¹ ^ (j.val + 1) := fun j => by
    rw [add_sub_cancel_left, div_mul_cancel_left₀ hrc]
  have p3 : ∀ i (j : Fin J), (P i j * ((s.r i * conj (s.z m + s.r m * x)) / ((s.rb : ℂ) ^ 2 - s.z i * conj (s.z m + s.r m * x))) ^ (j.val + 1)).re
      = ((conj (P i j) * (s.r i / s.D m i) ^ (j.val + 1)) * ((s.z m + s.r m * x) ^ (j.val + 1) * geo (s.tau m i) j.val x)).re := fun i j => by
    rw [← Complex.conj_re, map_mul, map_pow, map_div₀, d2, map_mul, Complex.conj_conj, Complex.conj_ofReal]
    congr 1
    unfold geo
    rw [mul_comm (s.D m i), mul_comm (s.r i : ℂ), ← div_mul_div_comm, mul_pow, div_pow _ (1 - x * s.tau m i), div_eq_mul_inv _ ((1 - x * s.tau m i) ^ _)]
    ring
  unfold Sec.inF Sec.reg Sec.c0
  simp only [p3, l3]
  rw [Complex.add_re, Complex.re_ofReal_mul, Complex.re_sum, Complex.re_sum]
  have g1 : ∀ i, q i * s.pikg * (log ‖(s.rb : ℂ) / (s.z m + s.r m * x - s.z i)‖ + s.sigma * (log ‖(s.rb : ℂ) ^ 2 / s.D m i‖ - (lg (s.tau m i) x).re))
      + ∑ j : Fin J, ((P i j * (s.r i / (s.z m + s.r m * x - s.z i)) ^ (j.val + 1)).re
        + s.sigma * ((conj (P i j) * (s.r i / s.D m i) ^ (j.val + 1)) * ((s.z m + s.r m * x) ^ (j.val + 1) * geo (s.tau m i) j.val x)).re)
      = (q i * s.pikg * (if m = i then log (s.rb / s.r m) else log ‖(s.rb : ℂ) / (s.z m - s.z i)‖) + q i * s.pikg * (s.sigma * log ‖(s.rb : ℂ) ^ 2 / s.D m i‖))
        + (if m = i then - (q m * s.pikg * log ‖x‖) + ∑ j : Fin J, (P m j * x⁻¹ ^ (j.val + 1)).re else 0)
        + (if m = i then 0 else
      (-(q i * s.pikg : ℝ) : ℂ) * lg (s.rho m i) x + ∑ j : Fin J, (P i j * (s.r i / (s.z m - s.z i)) ^ (j.val + 1)) * geo (s.rho m i) j.val x : ℂ).re
        + s.sigma * ((-(q i * s.pikg : ℝ) : ℂ) * lg (s.tau m i) x
      + ∑ j : Fin J, (conj (P i j) * (s.r i / s.D m i) ^ (j.val + 1)) * ((s.z m + s.r m * x) ^ (j.val + 1) * geo (s.tau m i) j.val x)).re := by
    intro i
    rw [Finset.sum_add_distrib, ← Finset.mul_sum]
    have w1 : ((-(q i * s.pikg : ℝ) : ℂ) * lg (s.tau m i) x + ∑ j : Fin J, (conj (P i j) * (s.r i / s.D m i) ^ (j.val + 1)) * ((s.z m + s.r m * x) ^ (j.val + 1) * geo (s.tau m i) j.val x)).re
        = -(q i * s.pikg) * (lg (s.tau m i) x).re + ∑ j : Fin J, ((conj (P i j) * (s.r i / s.D m i) ^ (j.val + 1)) * ((s.z m + s.r m * x) ^ (j.val + 1) * geo (s.tau m i) j.val x)).re := by
      rw [Complex.add_re, Complex.re_sum, ← Complex.ofReal_neg, Complex.re_ofReal_mul]
    rw [w1]
    by_cases hi : m = i
    · subst hi
      simp only [if_true, Complex.zero_re]
      rw [l2, Finset.sum_congr rfl fun j _ => by rw [p2 j]]
      ring
    · simp only [if_neg hi]
      rw [l1 i hi, Finset.sum_congr rfl fun j _ => by rw [p1 i j hi], Complex.add_re, Complex.re_sum, ← Complex.ofReal_neg, Complex.re_ofReal_mul]
      ring
  rw [add_assoc, ← Finset.sum_add_distrib, Finset.sum_congr rfl fun i _ => g1 i, Finset.sum_add_distrib, Finset.sum_add_distrib, Finset.sum_add_distrib, ← Finset.mul_sum,
    Finset.sum_ite_eq, if_pos (Finset.mem_univ m)]
  ring

end Verif.Pipe.Pole
