import Verif.Pipe.MultiSolve
import Mathlib.MeasureTheory.Integral.IntervalIntegral.FundThmCalculus

/-!
# Properties C40, C41, C61: boreholes with several U-tubes
-/

noncomputable section

namespace Verif.Pipe.Multi

open Matrix Set

variable {n k : ℕ}

/-! ### Specification -/

/-- Connections at the head of the borehole: `d i`, `u i` are the temperatures at the top of the downward and upward
pipes of U-tube `i`.  In parallel every U-tube receives the inlet temperature and the outlet is the mean.  In series the first U-tube receives
the inlet temperature and each following one the outlet of the one before; with reversed flow the order is opposite. -/
def HeadSpec (c : Config) (n : ℕ) (rev : Bool) (Tin Tout : ℝ) (d u : Fin n → ℝ) : Prop :=
  match c, rev with
  | .parallel, _ => (∀ i, d i = Tin) ∧ n * Tout = ∑ i, u i
  | .series, false => (∀ i : Fin n, (i : ℕ) = 0 → d i = Tin) ∧ (∀ i j : Fin n, (j : ℕ) = i + 1 → d j = u i) ∧
      ∀ i : Fin n, (i : ℕ) + 1 = n → Tout = u i
  | .series, true => (∀ i : Fin n, (i : ℕ) + 1 = n → d i = Tin) ∧ (∀ i j : Fin n, (j : ℕ) = i + 1 → d i = u j) ∧
      ∀ i : Fin n, (i : ℕ) = 0 → Tout = u i

/-- Specification of the solution: `w` is the heat capacity flow rate in each U-tube.  The fluid gains the heat flow of the delta circuit, is
continuous, passes from one pipe of a U-tube to the other at the bottom, and is connected at the head. -/
structure MSol (c : Config) (rev : Bool) (w : ℝ) (Rd : Matrix (P n) (P n) ℝ) (zu : ℕ → ℝ) (H : ℝ) (Tin : ℝ) (Tb : Fin k → ℝ)
    (T : ℝ → P n → ℝ) (Tout : ℝ) : Prop where
  down : ∀ v : Fin k, ∀ z ∈ Ioo (zu v) (zu (v + 1)), ∀ i, HasDerivAt (fun z => T z (downPipe (fun _ => rev) i))
    (pipeFlux Rd (T z) (Tb v) (downPipe (fun _ => rev) i) / w) z
  up : ∀ v : Fin k, ∀ z ∈ Ioo (zu v) (zu (v + 1)), ∀ i, HasDerivAt (fun z => T z (upPipe (fun _ => rev) i))
    (-(pipeFlux Rd (T z) (Tb v) (upPipe (fun _ => rev) i) / w)) z
  cont : ∀ i, ContinuousOn (fun z => T z i) (Icc 0 H)
  bottom : ∀ i, T H (.inl i) = T H (.inr i)
  head : HeadSpec c n rev Tin Tout (fun i => T 0 (downPipe (fun _ => rev) i)) (fun i => T 0 (upPipe (fun _ => rev) i))

/-! ### Facts about the connections -/

theorem pipeFlow_pos (c : Config) (hn : 0 < n) {m : ℝ} (hm : m ≠ 0) : 0 < pipeFlow c n m := by
  have := abs_pos.mpr hm
  have hn' : (0 : ℝ) < n := by exact_mod_cast hn
  cases c
  · simp only [pipeFlow]; positivity
  · simpa only [pipeFlow] using this

theorem multiple_aligned (c : Config) {reversible : Bool} {m : ℝ} (hm : m ≠ 0) (h : 0 < m ∨ reversible = true) (cp : ℝ) :
    Aligned (multiple c n reversible m cp) (fun _ => reversed reversible m) (fun _ => pipeFlow c n m * cp) := by
  rcases lt_or_gt_of_ne hm with h0 | h0
  · have hr : reversible = true := by
      rcases h with h | h
      · linarith
      · exact h
    have hrev : reversed reversible m = true := by simp [reversed, h0, hr]
    refine ⟨rfl, rfl, ?_, ?_⟩ <;> intro i <;> simp [multiple, downPipe, upPipe, hrev, mFlowPipe, Real.sign_of_neg h0]
  · have hrev : reversed reversible m = false := by simp [reversed, not_lt.mpr h0.le]
    refine ⟨rfl, rfl, ?_, ?_⟩ <;> intro i <;> simp [multiple, downPipe, upPipe, hrev, mFlowPipe, Real.sign_of_pos h0]

/-- Without reversible flow, a negative flow rate is counted against the direction of the model. -/
theorem multiple_misaligned (c : Config) {m : ℝ} (hm : m < 0) (cp : ℝ) :
    Aligned (multiple c n false m cp) (fun _ => reversed false m) (fun _ => -(pipeFlow c n m * cp)) := by
  have hrev : reversed false m = false := by simp [reversed]
  refine ⟨rfl, rfl, ?_, ?_⟩ <;> intro i <;> simp [multiple, downPipe, upPipe, hrev, mFlowPipe, Real.sign_of_neg hm]

theorem contract {ι : Type*} [Fintype ι] (M : Matrix ι ι ℝ) (h0 : ∀ i j, 0 ≤ M i j) (hr : ∀ i, ∑ j, M i j ≤ 1)
    (hc : ∀ j, ∑ i, M i j ≤ 1) (x : ι → ℝ) : ∑ i, (M *ᵥ x) i ^ 2 ≤ ∑ i, x i ^ 2 := by
  have h1 : ∀ i, (M *ᵥ x) i ^ 2 ≤ ∑ j, M i j * x j ^ 2 := by
    intro i
    have h2 := Finset.sum_sq_le_sum_mul_sum_of_sq_le_mul Finset.univ (r := fun j => M i j * x j) (f := fun j => M i j)
      (g := fun j => M i j * x j ^ 2) (fun j _ => h0 i j) (fun j _ => mul_nonneg (h0 i j) (sq_nonneg _))
      (fun j _ => le_of_eq (by ring))
    have h3 : 0 ≤ ∑ j, M i j * x j ^ 2 := Finset.sum_nonneg fun j _ => mul_nonneg (h0 i j) (sq_nonneg _)
    calc (M *ᵥ x) i ^ 2 = (∑ j, M i j * x j) ^ 2 := rfl
      _ ≤ (∑ j, M i j) * ∑ j, M i j * x j ^ 2 := h2
      _ ≤ 1 * ∑ j, M i j * x j ^ 2 := mul_le_mul_of_nonneg_right (hr i) h3
      _ = _ := one_mul _
  calc ∑ i, (M *ᵥ x) i ^ 2 ≤ ∑ i, ∑ j, M i j * x j ^ 2 := Finset.sum_le_sum fun i _ => h1 i
    _ = ∑ j, (∑ i, M i j) * x j ^ 2 := by
      rw [Finset.sum_comm]; exact Finset.sum_congr rfl fun j _ => by rw [Finset.sum_mul]
    _ ≤ ∑ j, 1 * x j ^ 2 := Finset.sum_le_sum fun j _ => mul_le_mul_of_nonneg_right (hc j) (sq_nonneg _)
    _ = _ := by simp

theorem sum_ind_le {p : Fin n → Prop} [DecidablePred p] (h : ∀ i j, p i → p j → i = j) :
    ∑ i, (if p i then (1 : ℝ) else 0) ≤ 1 := by
  rw [Finset.sum_boole]
  have : (Finset.univ.filter p).card ≤ 1 := Finset.card_le_one.mpr fun a ha b hb =>
    h a b (Finset.mem_filter.mp ha).2 (Finset.mem_filter.mp hb).2
  exact_mod_cast this

theorem headUp_contract (c : Config) (rev : Bool) (x : Fin n → ℝ) :
    ∑ i, (headUp c n rev *ᵥ x) i ^ 2 ≤ ∑ i, x i ^ 2 := by
  apply contract
  · intro i j
    cases c <;> cases rev <;> simp only [headUp] <;> (try split_ifs) <;> norm_num
  · intro i
    cases c <;> cases rev <;> simp only [headUp, if_true, Bool.false_eq_true, if_false]
    · simp
    · simp
    · exact sum_ind_le fun a b ha hb => Fin.ext (by omega)
    · exact sum_ind_le fun a b ha hb => Fin.ext (by omega)
  · intro j
    cases c <;> cases rev <;> simp only [headUp, if_true, Bool.false_eq_true, if_false]
    · simp
    · simp
    · exact sum_ind_le fun a b ha hb => Fin.ext (by omega)
    · exact sum_ind_le fun a b ha hb => Fin.ext (by omega)

theorem sum_one_hot {p : Fin n → Prop} [DecidablePred p] (x : Fin n → ℝ) (a : Fin n) (ha : p a) (h : ∀ j, p j → j = a) :
    ∑ j, (if p j then (1 : ℝ) else 0) * x j = x a := by
  rw [Finset.sum_eq_single a]
  · simp [ha]
  · intro j _ hj
    have : ¬ p j := fun hp => hj (h j hp)
    simp [this]
  · simp

theorem sum_no_hot {p : Fin n → Prop} [DecidablePred p] (x : Fin n → ℝ) (h : ∀ j, ¬ p j) :
    ∑ j, (if p j then (1 : ℝ) else 0) * x j = 0 :=
  Finset.sum_eq_zero fun j _ => by simp [h j]

/-- The matrices of the code express the connections. -/
theorem head_iff (c : Config) (hn : 0 < n) (reversible : Bool) {m cp : ℝ} (hm : m ≠ 0) (hcp : 0 < cp) (Tin Tout : ℝ)
    (d u : Fin n → ℝ) :
    HeadSpec c n (reversed reversible m) Tin Tout d u ↔
      d = (multiple c n reversible m cp).cin *ᵥ (fun _ => Tin) + (multiple c n reversible m cp).cfu *ᵥ u ∧
      (fun _ => Tout) = (multiple c n reversible m cp).dfu *ᵥ u := by
  have hn' : (n : ℝ) ≠ 0 := by exact_mod_cast hn.ne'
  cases c with
  | parallel =>
    have hf : 0 < |m| / n * cp := by
      have := abs_pos.mpr hm
      have : (0 : ℝ) < n := by exact_mod_cast hn
      positivity
    have habs : ∀ j : Fin n, |mFlowPipe .parallel n m (.inl j)| = |m| / n := by
      intro j
      simp only [mFlowPipe, pipeFlow]
      rw [abs_mul, abs_div, abs_abs, Nat.abs_cast]
      rcases lt_or_gt_of_ne hm with h | h
      · rw [Real.sign_of_neg h]; simp
      · rw [Real.sign_of_pos h]; simp
    have hout : ∀ i, ((multiple .parallel n reversible m cp).dfu *ᵥ u) i = (∑ j, u j) / n := by
      intro i
      simp only [multiple, headOut, Matrix.mulVec, dotProduct, habs, Finset.sum_const, Finset.card_univ, Fintype.card_fin,
        nsmul_eq_mul]
      rw [Finset.sum_div]
      refine Finset.sum_congr rfl fun j _ => ?_
      have := abs_pos.mpr hm
      field_simp
    have hin : (multiple .parallel n reversible m cp).cin *ᵥ (fun _ => Tin) + (multiple .parallel n reversible m cp).cfu *ᵥ u
        = fun _ => Tin := by
      funext i
      simp [multiple, headIn, headUp, Matrix.mulVec, dotProduct]
    rw [hin]
    have hs : HeadSpec .parallel n (reversed reversible m) Tin Tout d u ↔ (∀ i, d i = Tin) ∧ n * Tout = ∑ i, u i := by
      cases reversed reversible m <;> rfl
    rw [hs]
    constructor
    · rintro ⟨h1, h2⟩
      refine ⟨funext h1, ?_⟩
      funext i
      rw [hout, ← h2]
      field_simp
    · rintro ⟨h1, h2⟩
      refine ⟨fun i => congrFun h1 i, ?_⟩
      have := congrFun h2 0
      rw [hout] at this
      rw [this]
      field_simp
  | series =>
    cases hr : reversed reversible m
    · have hin : ∀ i, ((multiple .series n reversible m cp).cin *ᵥ (fun _ => Tin) + (multiple .series n reversible m cp).cfu *ᵥ u) i
          = (if (i : ℕ) = 0 then 1 else 0) * Tin + ∑ j : Fin n, (if (j : ℕ) + 1 = i then (1 : ℝ) else 0) * u j := by
        intro i
        simp only [multiple, headIn, headUp, hr, Matrix.mulVec, dotProduct, Pi.add_apply, Finset.univ_unique,
          Finset.sum_singleton, Bool.false_eq_true, if_false]
      have hout : ∀ i, ((multiple .series n reversible m cp).dfu *ᵥ u) i = u ⟨n - 1, by omega⟩ := by
        intro i
        simp only [multiple, headOut, hr, Matrix.mulVec, dotProduct, Bool.false_eq_true, if_false]
        exact sum_one_hot u ⟨n - 1, by omega⟩ (by dsimp; omega) fun j hj => Fin.ext (by dsimp; omega)
      constructor
      · rintro ⟨h1, h2, h3⟩
        refine ⟨?_, ?_⟩
        · funext i
          rw [hin]
          by_cases hi : (i : ℕ) = 0
          · rw [h1 i hi, if_pos hi, one_mul, sum_no_hot u (fun j => by omega), add_zero]
          · rw [if_neg hi, zero_mul, zero_add, sum_one_hot u ⟨i - 1, by omega⟩ (by dsimp; omega)
              (fun j hj => Fin.ext (by dsimp; omega))]
            exact h2 ⟨i - 1, by omega⟩ i (by dsimp; omega)
        · funext i
          rw [hout]
          exact h3 ⟨n - 1, by omega⟩ (by dsimp; omega)
      · rintro ⟨h1, h2⟩
        refine ⟨?_, ?_, ?_⟩
        · intro i hi
          rw [h1, hin, if_pos hi, one_mul, sum_no_hot u (fun j => by omega), add_zero]
        · intro i j hij
          rw [h1, hin, if_neg (by omega), zero_mul, zero_add, sum_one_hot u i (by omega) (fun l hl => Fin.ext (by omega))]
        · intro i hi
          have := congrFun h2 0
          rw [hout] at this
          rw [this]
          congr 1
          exact Fin.ext (by dsimp; omega)
    · have hin : ∀ i, ((multiple .series n reversible m cp).cin *ᵥ (fun _ => Tin) + (multiple .series n reversible m cp).cfu *ᵥ u) i
          = (if (i : ℕ) + 1 = n then 1 else 0) * Tin + ∑ j : Fin n, (if (j : ℕ) = i + 1 then (1 : ℝ) else 0) * u j := by
        intro i
        simp only [multiple, headIn, headUp, hr, Matrix.mulVec, dotProduct, Pi.add_apply, Finset.univ_unique,
          Finset.sum_singleton, if_true]
      have hout : ∀ i, ((multiple .series n reversible m cp).dfu *ᵥ u) i = u ⟨0, hn⟩ := by
        intro i
        simp only [multiple, headOut, hr, Matrix.mulVec, dotProduct, if_true]
        exact sum_one_hot u ⟨0, hn⟩ rfl fun j hj => Fin.ext hj
      constructor
      · rintro ⟨h1, h2, h3⟩
        refine ⟨?_, ?_⟩
        · funext i
          rw [hin]
          by_cases hi : (i : ℕ) + 1 = n
          · rw [h1 i hi, if_pos hi, one_mul, sum_no_hot u (fun j => by omega), add_zero]
          · rw [if_neg hi, zero_mul, zero_add, sum_one_hot (p := fun j : Fin n => (j : ℕ) = i + 1) u ⟨i + 1, by omega⟩ rfl (fun j hj => Fin.ext hj)]
            exact h2 i ⟨i + 1, by omega⟩ rfl
        · funext i
          rw [hout]
          exact h3 ⟨0, hn⟩ rfl
      · rintro ⟨h1, h2⟩
        refine ⟨?_, ?_, ?_⟩
        · intro i hi
          rw [h1, hin, if_pos hi, one_mul, sum_no_hot u (fun j => by omega), add_zero]
        · intro i j hij
          rw [h1, hin, if_neg (by omega), zero_mul, zero_add, sum_one_hot u j hij (fun l hl => Fin.ext (by omega))]
        · intro i hi
          have := congrFun h2 0
          rw [hout] at this
          rw [this]
          congr 1
          exact Fin.ext hi.symm

/-- Equivalence of the two forms of the specification. -/
theorem sol_iff (c : Config) (hn : 0 < n) (reversible : Bool) {m cp : ℝ} (hm : m ≠ 0) (hcp : 0 < cp)
    (h : 0 < m ∨ reversible = true) (Rd : Matrix (P n) (P n) ℝ) (zu : ℕ → ℝ) (H Tin : ℝ) (Tb : Fin k → ℝ) (T : ℝ → P n → ℝ) (Tout : ℝ) :
    Sol (multiple c n reversible m cp) Rd zu H (fun _ => Tin) Tb T (fun _ => Tout) ↔
      MSol c (reversed reversible m) (pipeFlow c n m * cp) Rd zu H Tin Tb T Tout := by
  have ha := multiple_aligned (n := n) c hm h cp
  constructor
  · intro hs
    refine ⟨?_, ?_, hs.cont, hs.bottom, ?_⟩
    · intro v z hz i
      refine (hs.ode v z hz _).congr_deriv ?_
      rw [ha.down]
    · intro v z hz i
      refine (hs.ode v z hz _).congr_deriv ?_
      rw [ha.up, div_neg]
    · obtain ⟨X, hX, hO⟩ := hs.head
      rw [head_iff c hn reversible hm hcp]
      have e1 : (fun i => T 0 (upPipe (fun _ => reversed reversible m) i)) = X := by
        funext i; rw [hX, ha.fd, ha.fu, dir_up]
      refine ⟨?_, by rw [e1]; exact hO⟩
      funext i
      rw [e1, hX, ha.fd, ha.fu, dir_down]
  · intro hs
    refine ⟨?_, hs.cont, hs.bottom, ?_⟩
    · intro v z hz p
      have key : ∀ i, p = downPipe (fun _ => reversed reversible m) i ∨ p = upPipe (fun _ => reversed reversible m) i →
          HasDerivAt (fun z => T z p) (pipeFlux Rd (T z) (Tb v) p / (multiple c n reversible m cp).mcp p) z := by
        rintro i (rfl | rfl)
        · refine (hs.down v z hz i).congr_deriv ?_
          rw [ha.down]
        · refine (hs.up v z hz i).congr_deriv ?_
          rw [ha.up, div_neg]
      cases p with
      | inl i => exact key i (by unfold downPipe upPipe; cases reversed reversible m <;> simp)
      | inr i => exact key i (by unfold downPipe upPipe; cases reversed reversible m <;> simp)
    · obtain ⟨h1, h2⟩ := (head_iff c hn reversible hm hcp Tin Tout _ _).mp hs.head
      refine ⟨fun i => T 0 (upPipe (fun _ => reversed reversible m) i), ?_, h2⟩
      rw [← h1]
      funext p
      have key : ∀ i, p = downPipe (fun _ => reversed reversible m) i ∨ p = upPipe (fun _ => reversed reversible m) i →
          T 0 p = ((multiple c n reversible m cp).fd *ᵥ (fun i => T 0 (downPipe (fun _ => reversed reversible m) i))
            + (multiple c n reversible m cp).fu *ᵥ fun i => T 0 (upPipe (fun _ => reversed reversible m) i)) p := by
        rintro i (rfl | rfl)
        · rw [ha.fd, ha.fu, dir_down]
        · rw [ha.fd, ha.fu, dir_up]
      cases p with
      | inl i => exact key i (by unfold downPipe upPipe; cases reversed reversible m <;> simp)
      | inr i => exact key i (by unfold downPipe upPipe; cases reversed reversible m <;> simp)

/-! ### Theorems -/

/-- Physical circuit: positive resistances, symmetric. -/
structure Circuit (Rd : Matrix (P n) (P n) ℝ) : Prop where
  pos : ∀ i j, 0 < Rd i j
  symm : Rd.IsSymm

/-- A borehole with `n` U-tubes with flow. -/
structure Flowing (n : ℕ) (reversible : Bool) (m cp : ℝ) : Prop where
  hn : 0 < n
  hm : m ≠ 0
  hcp : 0 < cp
  dir : 0 < m ∨ reversible = true

variable {Rd : Matrix (P n) (P n) ℝ} (hR : Circuit Rd) {c : Config} {reversible : Bool} {m cp : ℝ}
  (hf : Flowing n reversible m cp) {e : Eig n} (he : e.Of (odeA Rd (multiple c n reversible m cp).mcp))
  {zu : ℕ → ℝ} {H : ℝ} (hH : 0 < H) (hz : Edges zu k H)
include hR hf he hH hz

omit hz in
theorem multiple_regular : ∃ S, (mkBore k (multiple c n reversible m cp) Rd e zu H).upSolve = some S := by
  have ha := multiple_aligned (n := n) c hf.hm hf.dir cp
  have hw : 0 < pipeFlow c n m * cp := mul_pos (pipeFlow_pos c hf.hn hf.hm) hf.hcp
  have hu := solve_regular he hR.pos hR.symm ha (fun _ => hw) hH (by
    intro x
    rw [← Finset.mul_sum, Finset.sum_sub_distrib]
    have := headUp_contract c (reversed reversible m) x
    exact mul_nonpos_of_nonneg_of_nonpos hw.le (by
      have h2 : (multiple c n reversible m cp).cfu = headUp c n (reversed reversible m) := rfl
      rw [h2]; linarith))
  unfold Bore.upSolve solve
  exact ⟨_, if_pos hu⟩

omit hH hz in
theorem multiple_eig_ne (j : P n) : e.L j ≠ 0 := by
  refine eig_ne_zero hR.pos ?_ he j
  have ha := multiple_aligned (n := n) c hf.hm hf.dir cp
  have hw : 0 < pipeFlow c n m * cp := mul_pos (pipeFlow_pos c hf.hn hf.hm) hf.hcp
  intro p
  have h1 : ∀ i, p = downPipe (fun _ => reversed reversible m) i ∨ p = upPipe (fun _ => reversed reversible m) i →
      (multiple c n reversible m cp).mcp p ≠ 0 := by
    rintro i (rfl | rfl)
    · rw [ha.down]; exact hw.ne'
    · rw [ha.up]; exact neg_ne_zero.mpr hw.ne'
  cases p with
  | inl i => exact h1 i (by unfold downPipe upPipe; cases reversed reversible m <;> simp)
  | inr i => exact h1 i (by unfold downPipe upPipe; cases reversed reversible m <;> simp)

/-- **C61.**  For boreholes with any number of U-tubes, in parallel or in series, in both flow directions: the linear system at the head is
regular (no error is raised), and the temperatures returned are the unique solution of the energy balance of the fluid with the
connections of the configuration. -/
theorem multiple_profile (Tin : ℝ) (Tb : Fin k → ℝ) : ∃ T Tout,
    (∀ z, (mkBore k (multiple c n reversible m cp) Rd e zu H).temperature (fun _ => Tin) Tb z = some (T z)) ∧
    (mkBore k (multiple c n reversible m cp) Rd e zu H).outletT (fun _ => Tin) Tb = some (fun _ => Tout) ∧
    MSol c (reversed reversible m) (pipeFlow c n m * cp) Rd zu H Tin Tb T Tout ∧
    ∀ T' Tout', MSol c (reversed reversible m) (pipeFlow c n m * cp) Rd zu H Tin Tb T' Tout' →
      (∀ z ∈ Icc 0 H, T' z = T z) ∧ Tout' = Tout := by
  obtain ⟨S, hS⟩ := multiple_regular (k := k) (zu := zu) hR hf he hH
  have hL := multiple_eig_ne hR hf he
  have hsol := mk_solves he hL hz hS (fun _ => Tin) Tb
  have hu := (Bore.upSolve_some _ hS).1
  obtain ⟨Tout, hTo⟩ : ∃ Tout, Tout = ((multiple c n reversible m cp).dfu *ᵥ
      (mkBore k (multiple c n reversible m cp) Rd e zu H).X S (fun _ => Tin) Tb) 0 := ⟨_, rfl⟩
  have hTo' : ((multiple c n reversible m cp).dfu *ᵥ
      (mkBore k (multiple c n reversible m cp) Rd e zu H).X S (fun _ => Tin) Tb) = fun _ => Tout := by
    funext i; rw [hTo, Subsingleton.elim i 0]
  rw [hTo'] at hsol
  refine ⟨_, Tout, fun z => Bore.temperature_form _ hS _ Tb z, ?_,
    (sol_iff c hf.hn reversible hf.hm hf.hcp hf.dir Rd zu H Tin Tb _ Tout).mp hsol, ?_⟩
  · rw [Bore.outlet_form _ hS]
    exact congrArg some hTo'
  · intro T' Tout' h'
    have hs' := (sol_iff c hf.hn reversible hf.hm hf.hcp hf.dir Rd zu H Tin Tb T' Tout').mpr h'
    obtain ⟨h1, h2⟩ := sol_unique he hz hu hs' hsol
    exact ⟨h1, congrFun h2 0⟩

/-- **C61** (equilibrium).  If inlet and walls are at the same temperature, so are all pipes and the outlet. -/
theorem multiple_equilibrium (T0 : ℝ) :
    (∀ z ∈ Icc 0 H, (mkBore k (multiple c n reversible m cp) Rd e zu H).temperature (fun _ => T0) (fun _ => T0) z = some fun _ => T0) ∧
    (mkBore k (multiple c n reversible m cp) Rd e zu H).outletT (fun _ => T0) (fun _ => T0) = some fun _ => T0 := by
  obtain ⟨T, Tout, h1, h2, -, h3⟩ := multiple_profile hR hf he hH hz T0 (fun _ : Fin k => T0)
  have hflux : ∀ i, pipeFlux Rd (fun _ => T0) T0 i = 0 := by intro i; simp [pipeFlux]
  obtain ⟨h4, h5⟩ := h3 (fun _ _ => T0) T0 ⟨fun v z _ i => by simpa [hflux] using hasDerivAt_const z T0,
    fun v z _ i => by simpa [hflux] using hasDerivAt_const z T0, fun i => continuousOn_const, fun i => rfl, by
      cases c <;> cases reversed reversible m <;> simp [HeadSpec]⟩
  refine ⟨fun z hzH => ?_, ?_⟩
  · rw [h1, ← h4 z hzH]
  · rw [h2, h5]

omit hR hf he hH hz in
/-- Total heat of the segments and heat gained by the fluid. -/
theorem head_heat (c : Config) (hn : 0 < n) (rev : Bool) (Tin Tout q : ℝ) (d u : Fin n → ℝ) (h : HeadSpec c n rev Tin Tout d u) :
    ∑ i, pipeFlow c n q * (u i - d i) = |q| * (Tout - Tin) := by
  have hn' : (n : ℝ) ≠ 0 := by exact_mod_cast hn.ne'
  cases c with
  | parallel =>
    obtain ⟨h1, h2⟩ : (∀ i, d i = Tin) ∧ n * Tout = ∑ i, u i := by cases rev <;> exact h
    simp only [pipeFlow, h1]
    rw [← Finset.mul_sum, Finset.sum_sub_distrib, ← h2]
    simp only [Finset.sum_const, Finset.card_univ, Fintype.card_fin, nsmul_eq_mul]
    field_simp
  | series =>
    obtain ⟨p, rfl⟩ : ∃ p, n = p + 1 := ⟨n - 1, by omega⟩
    simp only [pipeFlow]
    rw [← Finset.mul_sum, Finset.sum_sub_distrib]
    cases rev
    · obtain ⟨h1, h2, h3⟩ := h
      rw [Fin.sum_univ_castSucc, Fin.sum_univ_succ (f := d), h1 0 rfl, h3 (Fin.last p) (by simp)]
      rw [Finset.sum_congr rfl fun (i : Fin p) _ => h2 i.castSucc i.succ (by simp)]
      ring
    · obtain ⟨h1, h2, h3⟩ := h
      rw [Fin.sum_univ_succ, Fin.sum_univ_castSucc (f := d), h1 (Fin.last p) (by simp), h3 0 rfl]
      rw [Finset.sum_congr rfl fun (i : Fin p) _ => h2 i.castSucc i.succ (by simp)]
      ring

omit hR hf he hH hz in
theorem aligned_mcp_ne {ni no : ℕ} {cc : Conn n ni no} {rev : Fin n → Bool} {w : Fin n → ℝ} (ha : Aligned cc rev w) (hw : ∀ i, w i ≠ 0)
    (p : P n) : cc.mcp p ≠ 0 := by
  have key : ∀ i, p = downPipe rev i ∨ p = upPipe rev i → cc.mcp p ≠ 0 := by
    rintro i (rfl | rfl)
    · rw [ha.down]; exact hw i
    · rw [ha.up]; exact neg_ne_zero.mpr (hw i)
  cases p with
  | inl i => exact key i (by unfold downPipe upPipe; cases rev i <;> simp)
  | inr i => exact key i (by unfold downPipe upPipe; cases rev i <;> simp)

omit hR hf he hH hz in
theorem fluidHeat_form {ni : ℕ} (b : Bore n ni ni k) {Tin Tout : Fin ni → ℝ} {Tb : Fin k → ℝ} (h : b.outletT Tin Tb = some Tout) :
    b.fluidHeat Tin Tb = some fun i => b.conn.mcpIn i * (Tout i - Tin i) := by
  unfold Bore.outletT at h
  unfold Bore.fluidHeat Bore.fluidCoef
  cases ho : b.outletCoef with
  | none => rw [ho] at h; simp at h
  | some co =>
    rw [ho] at h
    simp only [Option.map_some, Option.some.injEq] at h ⊢
    rw [Matrix.add_mulVec, Matrix.neg_mulVec, ← Matrix.mulVec_mulVec, ← Matrix.mulVec_mulVec, add_assoc, ← Matrix.mulVec_add, h]
    funext i
    rw [Pi.add_apply, Pi.neg_apply, Matrix.mulVec_diagonal, Matrix.mulVec_diagonal]
    ring

omit hf he hH in
/-- Heat of the segments, whatever the connections. -/
theorem aligned_heat {ni no : ℕ} {cc : Conn n ni no} {rev : Fin n → Bool} {w : Fin n → ℝ} (ha : Aligned cc rev w) (hw : ∀ i, w i ≠ 0)
    {e : Eig n} (he : e.Of (odeA Rd cc.mcp)) {S} (hS : (mkBore k cc Rd e zu H).upSolve = some S) (Tin : Fin ni → ℝ) (Tb : Fin k → ℝ) :
    ∃ (q : Fin k → ℝ) (T : ℝ → P n → ℝ) (Tout : Fin no → ℝ),
    (∀ v : Fin k, (mkBore k cc Rd e zu H).segmentHeat zu Tin Tb v = some (q v)) ∧
    (∀ z, (mkBore k cc Rd e zu H).temperature Tin Tb z = some (T z)) ∧
    (mkBore k cc Rd e zu H).outletT Tin Tb = some Tout ∧ Sol cc Rd zu H Tin Tb T Tout ∧
    (∑ v, q v = ∑ i, w i * (T 0 (upPipe rev i) - T 0 (downPipe rev i))) ∧
    ∀ v : Fin k, q v = ∫ z in (zu v)..(zu (v + 1)), ∑ i, (Tb v - T z i) / Rd i i := by
  have hmne := aligned_mcp_ne ha hw
  have hL := eig_ne_zero hR.pos hmne he
  have hsol := mk_solves he hL hz hS Tin Tb
  obtain ⟨T, hT⟩ : ∃ T : ℝ → P n → ℝ, T = fun z => (mkBore k cc Rd e zu H).f0 z *ᵥ (mkBore k cc Rd e zu H).T0 S Tin Tb
      + (mkBore k cc Rd e zu H).fb z *ᵥ Tb := ⟨_, rfl⟩
  rw [← hT] at hsol
  refine ⟨fun v => ∑ i, cc.mcp i * (T (zu (v + 1)) i - T (zu v) i), T, _, ?_, ?_, Bore.outlet_form _ hS Tin Tb, hsol, ?_, ?_⟩
  · intro v
    rw [segmentHeat_form _ hS, hT]
    rfl
  · intro z
    rw [Bore.temperature_form _ hS, hT]
  · rw [Finset.sum_comm]
    have h5 : ∀ i, ∑ v : Fin k, cc.mcp i * (T (zu (v + 1)) i - T (zu v) i) = cc.mcp i * (T H i - T 0 i) := by
      intro i
      rw [Fin.sum_univ_eq_sum_range (fun v => cc.mcp i * (T (zu (v + 1)) i - T (zu v) i)) k,
        ← Finset.mul_sum, Finset.sum_range_sub (fun v => T (zu v) i), hz.zero, hz.last]
    rw [Finset.sum_congr rfl fun i _ => h5 i, sum_pipes rev]
    refine Finset.sum_congr rfl fun i _ => ?_
    rw [ha.down, ha.up, bottom_pipes rev (T H) hsol.bottom i]
    ring
  · intro v
    have hle : zu v ≤ zu (v + 1) := hz.mono v (v + 1) (by omega) v.2
    have hsub : Icc (zu v) (zu (v + 1)) ⊆ Icc 0 H := by
      apply Icc_subset_Icc
      · rw [← hz.zero]; exact hz.mono 0 v (Nat.zero_le _) v.2.le
      · rw [← hz.last]; exact hz.mono (v + 1) k v.2 le_rfl
    have hcont : ∀ i, ContinuousOn (fun z => T z i) (Icc (zu v) (zu (v + 1))) := fun i => (hsol.cont i).mono hsub
    have hder : ∀ z ∈ Ioo (zu v) (zu (v + 1)), HasDerivAt (fun z => ∑ i, cc.mcp i * T z i) (∑ i, (Tb v - T z i) / Rd i i) z := by
      intro z hzv
      have hd : HasDerivAt (fun z => ∑ i, cc.mcp i * T z i) (∑ i, cc.mcp i * (pipeFlux Rd (T z) (Tb v) i / cc.mcp i)) z :=
        HasDerivAt.fun_sum fun i _ => (hsol.ode v z hzv i).const_mul _
      refine hd.congr_deriv ?_
      rw [← flux_total Rd hR.symm]
      exact Finset.sum_congr rfl fun i _ => mul_div_cancel₀ _ (hmne i)
    have hint := intervalIntegral.integral_eq_sub_of_hasDerivAt_of_le hle (f := fun z => ∑ i, cc.mcp i * T z i)
      (continuousOn_finsetSum _ fun i _ => continuousOn_const.mul (hcont i)) hder
      (ContinuousOn.intervalIntegrable (by
        rw [uIcc_of_le hle]
        exact continuousOn_finsetSum _ fun i _ => (continuousOn_const.sub (hcont i)).div_const _))
    rw [hint, ← Finset.sum_sub_distrib]
    exact Finset.sum_congr rfl fun i _ => by ring

/-- **C40** (several U-tubes).  The heat extracted by the segments sums to the heat gained by the fluid, in parallel and in
series, in both flow directions, for any number of U-tubes; and the heat extracted by a segment is the heat flow through its wall. -/
theorem multiple_energy_balance (Tin : ℝ) (Tb : Fin k → ℝ) : ∃ (q : Fin k → ℝ) (T : ℝ → P n → ℝ) (Tout Qf : ℝ),
    (∀ v : Fin k, (mkBore k (multiple c n reversible m cp) Rd e zu H).segmentHeat zu (fun _ => Tin) Tb v = some (q v)) ∧
    (∀ z, (mkBore k (multiple c n reversible m cp) Rd e zu H).temperature (fun _ => Tin) Tb z = some (T z)) ∧
    (mkBore k (multiple c n reversible m cp) Rd e zu H).outletT (fun _ => Tin) Tb = some (fun _ => Tout) ∧
    (mkBore k (multiple c n reversible m cp) Rd e zu H).fluidHeat (fun _ => Tin) Tb = some (fun _ => Qf) ∧
    ∑ v, q v = Qf ∧ Qf = |m| * cp * (Tout - Tin) ∧
    ∀ v : Fin k, q v = ∫ z in (zu v)..(zu (v + 1)), ∑ i, (Tb v - T z i) / Rd i i := by
  obtain ⟨S, hS⟩ := multiple_regular (k := k) (zu := zu) hR hf he hH
  have ha := multiple_aligned (n := n) c hf.hm hf.dir cp
  have hw : 0 < pipeFlow c n m * cp := mul_pos (pipeFlow_pos c hf.hn hf.hm) hf.hcp
  obtain ⟨q, T, To, h1, h2, h3, h4, h5, h6⟩ := aligned_heat hR hz ha (fun _ => hw.ne') he hS (fun _ => Tin) Tb
  obtain ⟨Tout, rfl⟩ : ∃ Tout : ℝ, To = fun _ => Tout := ⟨To 0, funext fun i => by rw [Subsingleton.elim i 0]⟩
  refine ⟨q, T, Tout, |m| * cp * (Tout - Tin), h1, h2, h3, fluidHeat_form _ h3, ?_, rfl, h6⟩
  have h7 := (sol_iff c hf.hn reversible hf.hm hf.hcp hf.dir Rd zu H Tin Tb T Tout).mp h4
  have h8 := head_heat c hf.hn _ Tin Tout m _ _ h7.head
  rw [h5, show |m| * cp * (Tout - Tin) = cp * (|m| * (Tout - Tin)) by ring, ← h8, Finset.mul_sum]
  exact Finset.sum_congr rfl fun i _ => by ring

omit hf he hH in
/-- **C41** (several U-tubes).  A negative flow rate with `reversible_flow=False`: whenever the system can be solved, the heat extracted by the segments has the
opposite sign of the heat gained by the fluid. -/
theorem multiple_irreversible_partial (c : Config) (hn : 0 < n) {m cp : ℝ} (hm : m < 0) (hcp : 0 < cp)
    {e : Eig n} (he : e.Of (odeA Rd (multiple c n false m cp).mcp)) {S} (hS : (mkBore k (multiple c n false m cp) Rd e zu H).upSolve = some S)
    (Tin : ℝ) (Tb : Fin k → ℝ) : ∃ (q : Fin k → ℝ) (Qf : ℝ),
    (∀ v : Fin k, (mkBore k (multiple c n false m cp) Rd e zu H).segmentHeat zu (fun _ => Tin) Tb v = some (q v)) ∧
    (mkBore k (multiple c n false m cp) Rd e zu H).fluidHeat (fun _ => Tin) Tb = some (fun _ => Qf) ∧
    ∑ v, q v = -Qf := by
  have ha := multiple_misaligned (n := n) c hm cp
  have hw : 0 < pipeFlow c n m * cp := mul_pos (pipeFlow_pos c hn hm.ne) hcp
  obtain ⟨q, T, To, h1, h2, h3, h4, h5, h6⟩ := aligned_heat hR hz ha (fun _ => (neg_neg_of_pos hw).ne) he hS (fun _ => Tin) Tb
  obtain ⟨Tout, rfl⟩ : ∃ Tout : ℝ, To = fun _ => Tout := ⟨To 0, funext fun i => by rw [Subsingleton.elim i 0]⟩
  refine ⟨q, |m| * cp * (Tout - Tin), h1, fluidHeat_form _ h3, ?_⟩
  have h7 : HeadSpec c n (reversed false m) Tin Tout (fun i => T 0 (downPipe (fun _ => reversed false m) i))
      (fun i => T 0 (upPipe (fun _ => reversed false m) i)) := by
    rw [head_iff c hn false hm.ne hcp]
    obtain ⟨X, hX, hO⟩ := h4.head
    have e1 : (fun i => T 0 (upPipe (fun _ => reversed false m) i)) = X := by
      funext i; rw [hX, ha.fd, ha.fu, dir_up]
    refine ⟨?_, by rw [e1]; exact hO⟩
    funext i
    rw [e1, hX, ha.fd, ha.fu, dir_down]
  have h8 := head_heat c hn _ Tin Tout m _ _ h7
  rw [h5, show |m| * cp * (Tout - Tin) = cp * (|m| * (Tout - Tin)) by ring, ← h8, Finset.mul_sum, ← Finset.sum_neg_distrib]
  exact Finset.sum_congr rfl fun i _ => by ring

/-! ### Independent U-tubes -/

omit hR hf he hH hz in
theorem independent_aligned {reversible : Bool} {m cp : Fin n → ℝ} (hm : ∀ i, m i ≠ 0)
    (h : ∀ i, 0 < m i ∨ reversible = true) :
    Aligned (independent n reversible m cp) (fun i => reversed reversible (m i)) (fun i => |m i| * cp i) := by
  refine ⟨rfl, rfl, ?_, ?_⟩ <;> intro i <;> rcases lt_or_gt_of_ne (hm i) with h0 | h0
  · have hr : reversible = true := (h i).resolve_left (by linarith)
    simp [independent, downPipe, reversed, h0, hr, abs_of_neg h0]
  · simp [independent, downPipe, reversed, not_lt.mpr h0.le, abs_of_pos h0]
  · have hr : reversible = true := (h i).resolve_left (by linarith)
    simp [independent, upPipe, reversed, h0, hr, abs_of_neg h0]
  · simp [independent, upPipe, reversed, not_lt.mpr h0.le, abs_of_pos h0]

/-- Specification for independent U-tubes: `w i` is the heat capacity flow rate of U-tube `i`, which has its own inlet and
outlet and its own flow direction. -/
structure ISol (rev : Fin n → Bool) (w : Fin n → ℝ) (Rd : Matrix (P n) (P n) ℝ) (zu : ℕ → ℝ) (H : ℝ) (Tin : Fin n → ℝ) (Tb : Fin k → ℝ)
    (T : ℝ → P n → ℝ) (Tout : Fin n → ℝ) : Prop where
  down : ∀ v : Fin k, ∀ z ∈ Ioo (zu v) (zu (v + 1)), ∀ i, HasDerivAt (fun z => T z (downPipe rev i))
    (pipeFlux Rd (T z) (Tb v) (downPipe rev i) / w i) z
  up : ∀ v : Fin k, ∀ z ∈ Ioo (zu v) (zu (v + 1)), ∀ i, HasDerivAt (fun z => T z (upPipe rev i))
    (-(pipeFlux Rd (T z) (Tb v) (upPipe rev i) / w i)) z
  cont : ∀ i, ContinuousOn (fun z => T z i) (Icc 0 H)
  bottom : ∀ i, T H (.inl i) = T H (.inr i)
  inlet : ∀ i, T 0 (downPipe rev i) = Tin i
  outlet : ∀ i, T 0 (upPipe rev i) = Tout i

omit hR hf he hH hz in
theorem isol_iff {reversible : Bool} {m cp : Fin n → ℝ} (hm : ∀ i, m i ≠ 0) (h : ∀ i, 0 < m i ∨ reversible = true)
    (Tin : Fin n → ℝ) (Tb : Fin k → ℝ) (T : ℝ → P n → ℝ) (Tout : Fin n → ℝ) :
    Sol (independent n reversible m cp) Rd zu H Tin Tb T Tout ↔
      ISol (fun i => reversed reversible (m i)) (fun i => |m i| * cp i) Rd zu H Tin Tb T Tout := by
  have ha := independent_aligned (cp := cp) hm h
  have hcin : (independent n reversible m cp).cin = 1 := rfl
  have hcfu : (independent n reversible m cp).cfu = 0 := rfl
  have hdfu : (independent n reversible m cp).dfu = 1 := rfl
  constructor
  · intro hs
    obtain ⟨X, hX, hO⟩ := hs.head
    rw [hdfu, Matrix.one_mulVec] at hO
    rw [hcin, hcfu, Matrix.one_mulVec, Matrix.zero_mulVec, add_zero] at hX
    refine ⟨?_, ?_, hs.cont, hs.bottom, ?_, ?_⟩
    · intro v z hz i
      refine (hs.ode v z hz _).congr_deriv ?_
      rw [ha.down]
    · intro v z hz i
      refine (hs.ode v z hz _).congr_deriv ?_
      rw [ha.up, div_neg]
    · intro i
      rw [hX, ha.fd, ha.fu, dir_down]
    · intro i
      rw [hX, ha.fd, ha.fu, dir_up, hO]
  · intro hs
    refine ⟨?_, hs.cont, hs.bottom, Tout, ?_, ?_⟩
    · intro v z hz p
      have key : ∀ i, p = downPipe (fun i => reversed reversible (m i)) i ∨ p = upPipe (fun i => reversed reversible (m i)) i →
          HasDerivAt (fun z => T z p) (pipeFlux Rd (T z) (Tb v) p / (independent n reversible m cp).mcp p) z := by
        rintro i (rfl | rfl)
        · refine (hs.down v z hz i).congr_deriv ?_
          rw [ha.down]
        · refine (hs.up v z hz i).congr_deriv ?_
          rw [ha.up, div_neg]
      cases p with
      | inl i => exact key i (by unfold downPipe upPipe; cases reversed reversible (m i) <;> simp)
      | inr i => exact key i (by unfold downPipe upPipe; cases reversed reversible (m i) <;> simp)
    · rw [hcin, hcfu, Matrix.one_mulVec, Matrix.zero_mulVec, add_zero]
      funext p
      have key : ∀ i, p = downPipe (fun i => reversed reversible (m i)) i ∨ p = upPipe (fun i => reversed reversible (m i)) i →
          T 0 p = ((independent n reversible m cp).fd *ᵥ Tin + (independent n reversible m cp).fu *ᵥ Tout) p := by
        rintro i (rfl | rfl)
        · rw [ha.fd, ha.fu, dir_down, hs.inlet]
        · rw [ha.fd, ha.fu, dir_up, hs.outlet]
      cases p with
      | inl i => exact key i (by unfold downPipe upPipe; cases reversed reversible (m i) <;> simp)
      | inr i => exact key i (by unfold downPipe upPipe; cases reversed reversible (m i) <;> simp)
    · rw [hdfu, Matrix.one_mulVec]

omit hf he in
/-- **C40, C61** (independent U-tubes).  For any number of U-tubes with independent inlets, flow rates, heat capacities and flow
directions: no error is raised, the temperatures are the unique solution of the energy balance of the fluid, and the heat extracted by the segments (which
is the heat flow through their walls) sums to the heat gained by the fluid in all U-tubes. -/
theorem independent_profile {reversible : Bool} {m cp : Fin n → ℝ} (hm : ∀ i, m i ≠ 0) (hcp : ∀ i, 0 < cp i)
    (h : ∀ i, 0 < m i ∨ reversible = true) {e : Eig n} (he : e.Of (odeA Rd (independent n reversible m cp).mcp))
    (Tin : Fin n → ℝ) (Tb : Fin k → ℝ) : ∃ (q : Fin k → ℝ) (T : ℝ → P n → ℝ) (Tout Qf : Fin n → ℝ),
    (∀ v : Fin k, (mkBore k (independent n reversible m cp) Rd e zu H).segmentHeat zu Tin Tb v = some (q v)) ∧
    (∀ z, (mkBore k (independent n reversible m cp) Rd e zu H).temperature Tin Tb z = some (T z)) ∧
    (mkBore k (independent n reversible m cp) Rd e zu H).outletT Tin Tb = some Tout ∧
    (mkBore k (independent n reversible m cp) Rd e zu H).fluidHeat Tin Tb = some Qf ∧
    ∑ v, q v = ∑ i, Qf i ∧ (∀ i, Qf i = |m i| * cp i * (Tout i - Tin i)) ∧
    (∀ v : Fin k, q v = ∫ z in (zu v)..(zu (v + 1)), ∑ i, (Tb v - T z i) / Rd i i) ∧
    ISol (fun i => reversed reversible (m i)) (fun i => |m i| * cp i) Rd zu H Tin Tb T Tout ∧
    ∀ T' Tout', ISol (fun i => reversed reversible (m i)) (fun i => |m i| * cp i) Rd zu H Tin Tb T' Tout' →
      (∀ z ∈ Icc 0 H, T' z = T z) ∧ Tout' = Tout := by
  have ha := independent_aligned (cp := cp) hm h
  have hw : ∀ i, 0 < |m i| * cp i := fun i => mul_pos (abs_pos.mpr (hm i)) (hcp i)
  have hu := solve_regular he hR.pos hR.symm ha hw hH (by
    intro x
    have hc0 : (independent n reversible m cp).cfu = 0 := rfl
    rw [hc0]
    refine Finset.sum_nonpos fun i _ => ?_
    rw [Matrix.zero_mulVec]
    have := mul_nonneg (hw i).le (sq_nonneg (x i))
    simp only [Pi.zero_apply]
    nlinarith)
  obtain ⟨S, hS⟩ : ∃ S, (mkBore k (independent n reversible m cp) Rd e zu H).upSolve = some S := by
    unfold Bore.upSolve solve
    exact ⟨_, if_pos hu⟩
  obtain ⟨q, T, Tout, h1, h2, h3, h4, h5, h6⟩ := aligned_heat hR hz ha (fun i => (hw i).ne') he hS Tin Tb
  have h7 := (isol_iff hm h Tin Tb T Tout).mp h4
  refine ⟨q, T, Tout, fun i => |m i| * cp i * (Tout i - Tin i), h1, h2, h3, fluidHeat_form _ h3, ?_, fun i => rfl, h6, h7, ?_⟩
  · rw [h5]
    exact Finset.sum_congr rfl fun i _ => by rw [h7.inlet, h7.outlet]
  · intro T' Tout' h'
    exact sol_unique he hz hu ((isol_iff hm h Tin Tb T' Tout').mpr h') h4

end Verif.Pipe.Multi
