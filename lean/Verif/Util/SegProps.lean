import Verif.Util.SegModel
import Mathlib.Algebra.Order.Ring.GeomSum
import Mathlib.Algebra.Ring.GeomSum
import Mathlib.Data.Real.Basic
import Mathlib.Algebra.Polynomial.Roots
import Mathlib.Topology.Order.IntermediateValue
import Mathlib.Topology.Algebra.Ring.Real

/-!
# Property C11: `segment_ratios`
-/

set_option linter.unusedSectionVars false

namespace Verif.Util

open Finset

section generic
variable {K : Type*} [Field K] [LinearOrder K] [IsStrictOrderedRing K]

/-- Specification: value of the polynomial with the given coefficients (lowest degree
first). -/
def polyEval (c : List K) (x : K) : K := ∑ i ∈ range c.length, c.getD i 0 * x ^ i

/-- Specification of a valid discretization into `n` segments. -/
structure ValidRatios (n : ℕ) (l : List K) : Prop where
  length : l.length = n
  pos : ∀ v ∈ l, 0 < v
  symm : l.reverse = l
  sum : |1 - l.sum| < 1 / 10 ^ 6

theorem firstAccepted_ok (f : K → List K) (xs : List K) (l : List K)
    (h : firstAccepted f xs = .ok l) : ∃ x ∈ xs, l = f x ∧ accept (f x) = true := by
  induction xs with
  | nil => simp [firstAccepted] at h
  | cons x xs ih =>
    rw [firstAccepted] at h
    split_ifs at h with ha
    · refine ⟨x, by simp, ?_, ha⟩
      simpa using h.symm
    · obtain ⟨y, hy, h1, h2⟩ := ih h
      exact ⟨y, by simp [hy], h1, h2⟩

theorem firstAccepted_isOk (f : K → List K) (xs : List K) (x : K) (hx : x ∈ xs)
    (ha : accept (f x) = true) : ∃ l, firstAccepted f xs = .ok l := by
  induction xs with
  | nil => simp at hx
  | cons y xs ih =>
    rw [firstAccepted]
    split_ifs with hy
    · exact ⟨_, rfl⟩
    · rcases List.mem_cons.mp hx with rfl | hx
      · exact absurd ha hy
      · exact ih hx

theorem accept_iff (l : List K) : accept l = true ↔ |1 - l.sum| < 1 / 10 ^ 6 ∧ ∀ v ∈ l, 0 < v := by
  simp [accept]

theorem head_last {l : List K} {r : K} (hs : l.reverse = l) (h : l.head? = some r) :
    l.head? = some r ∧ l.getLast? = some r := by
  refine ⟨h, ?_⟩
  rw [← List.head?_reverse, hs, h]

/-- **C11** (post-condition).  Whenever `segment_ratios` returns, for whatever roots the
polynomial solver delivers, the result is a valid discretization: the requested number of
positive ratios, symmetric about mid-length, with sum one within `10⁻⁶`.  For three segments
or more the end ratios are the requested ones, unless the uniform discretization applies. -/
theorem segment_ratios_valid (roots : List K → List K) (n : ℤ) (r : K) (l : List K)
    (h : segmentRatios roots n r = .ok l) :
    1 ≤ n ∧ ValidRatios n.toNat l ∧
      (3 ≤ n → (0 < r ∧ r < 1 / 2) ∧ ((l.head? = some r ∧ l.getLast? = some r) ∨
        (|1 - (n : K) * r| < 1 / 10 ^ 6 ∧ l = List.replicate n.toNat (1 / (n : K))))) := by
  unfold segmentRatios at h
  have hsmall : (0 : K) < 1 / 10 ^ 6 := by positivity
  split_ifs at h with h1 h2 h3 h4 h5 h6 h7
  · -- n = 1
    simp only [Except.ok.injEq] at h
    subst h3 h
    refine ⟨le_refl 1, ⟨rfl, by simp, rfl, by simp⟩, by omega⟩
  · simp only [Except.ok.injEq] at h
    subst h4 h
    refine ⟨by norm_num, ⟨rfl, by simp, rfl, ?_⟩, by omega⟩
    simp only [List.sum_cons, List.sum_nil]
    rw [show (1 : K) - (1 / 2 + (1 / 2 + 0)) = 0 by ring, abs_zero]; exact hsmall
  · simp only [Except.ok.injEq] at h
    subst h5 h
    have hr : 0 < r ∧ r < 1 / 2 := h2.resolve_left (by norm_num)
    refine ⟨by norm_num, ⟨rfl, ?_, rfl, ?_⟩, fun _ => ⟨hr, Or.inl ⟨rfl, rfl⟩⟩⟩
    · intro v hv
      simp only [List.mem_cons, List.not_mem_nil, or_false] at hv
      rcases hv with rfl | rfl | rfl <;> linarith [hr.1, hr.2]
    · simp only [List.sum_cons, List.sum_nil]
      rw [show (1 : K) - (r + (1 - 2 * r + (r + 0))) = 0 by ring, abs_zero]; exact hsmall
  · simp only [Except.ok.injEq] at h
    have hr : 0 < r ∧ r < 1 / 2 := h2.resolve_left (by omega)
    have hn : (0 : K) < n := by exact_mod_cast (by omega : 0 < n)
    have hcast : ((n.toNat : ℕ) : K) = (n : K) := by
      rw [← Int.cast_natCast, Int.toNat_of_nonneg (by omega)]
    refine ⟨h1, ⟨?_, ?_, ?_, ?_⟩, fun _ => ⟨hr, Or.inr ⟨h6, h.symm⟩⟩⟩
    · simp [← h]
    · intro v hv
      rw [← h] at hv
      rw [List.eq_of_mem_replicate hv]
      positivity
    · simp [← h]
    · rw [← h, List.sum_replicate, nsmul_eq_mul, hcast, mul_one_div_cancel hn.ne', sub_self, abs_zero]
      exact hsmall
  · obtain ⟨x, -, rfl, ha⟩ := firstAccepted_ok _ _ _ h
    rw [accept_iff] at ha
    have hr : 0 < r ∧ r < 1 / 2 := h2.resolve_left (by omega)
    refine ⟨h1, ⟨?_, ha.2, by simp, ha.1⟩, fun _ => ⟨hr, Or.inl ?_⟩⟩
    · simp [dz]; omega
    · obtain ⟨m, hm⟩ : ∃ m, n.toNat / 2 = m + 1 := ⟨n.toNat / 2 - 1, by omega⟩
      refine head_last (by simp) ?_
      simp only [hm, dz, List.range_succ_eq_map]
      simp
  · obtain ⟨x, -, rfl, ha⟩ := firstAccepted_ok _ _ _ h
    rw [accept_iff] at ha
    have hr : 0 < r ∧ r < 1 / 2 := h2.resolve_left (by omega)
    refine ⟨h1, ⟨?_, ha.2, by simp, ha.1⟩, fun _ => ⟨hr, Or.inl ?_⟩⟩
    · simp [dz]; omega
    · obtain ⟨m, hm⟩ : ∃ m, (n.toNat - 1) / 2 = m + 1 := ⟨(n.toNat - 1) / 2 - 1, by omega⟩
      refine head_last (by simp) ?_
      simp only [hm, dz, List.range_succ_eq_map]
      simp

/-- **C11** (rejected arguments).  An `AssertionError` is raised exactly for less than one
segment, or three or more segments with an end ratio outside `(0, 1/2)`. -/
theorem segment_ratios_assertion_iff (roots : List K → List K) (n : ℤ) (r : K) :
    segmentRatios roots n r = .error .assertion ↔ n < 1 ∨ (3 ≤ n ∧ ¬ (0 < r ∧ r < 1 / 2)) := by
  have hfa : ∀ (f : K → List K) (xs : List K), firstAccepted f xs ≠ .error .assertion := by
    intro f xs
    induction xs with
    | nil => simp [firstAccepted]
    | cons x xs ih => rw [firstAccepted]; split_ifs <;> simp [ih]
  unfold segmentRatios
  split_ifs with h1 h2 h3 h4 h5 h6 h7 <;> simp only [false_iff, true_iff, hfa] <;>
    first
    | (left; omega)
    | (right; push Not at h2; exact ⟨by omega, fun hc => absurd hc.2 (not_lt.mpr (h2.2 hc.1))⟩)
    | (rintro (h | ⟨h, hc⟩)
       · omega
       · exact hc (h2.resolve_left (by omega)))

theorem dz_sum (nz : ℕ) (r x : K) : (dz nz r x).sum = r * ∑ i ∈ range nz, x ^ i := by
  induction nz with
  | zero => simp [dz]
  | succ n ih =>
    rw [Finset.sum_range_succ, mul_add, ← ih]
    simp [dz, List.range_succ]; ring

theorem even_eval (nz : ℕ) (hz : 2 ≤ nz) (r x : K) :
    polyEval (evenCoefs nz r) x = (1 - x) * (1 - 2 * r * ∑ i ∈ range nz, x ^ i) := by
  have hs := geom_sum_mul x nz
  have hp : polyEval (evenCoefs nz r) x = (1 - 2 * r) - x + 2 * r * x ^ nz := by
    unfold polyEval evenCoefs
    simp only [List.length_set, List.length_replicate]
    obtain ⟨m, rfl⟩ : ∃ m, nz = m + 2 := ⟨nz - 2, by omega⟩
    rw [Finset.sum_range_succ, Finset.sum_range_succ', Finset.sum_range_succ']
    have hz0 : ∑ k ∈ range m, ((((List.replicate (m + 2 + 1) (0 : K)).set 0 (1 - 2 * r)).set 1 (-1)).set
        (m + 2) (2 * r)).getD (k + 1 + 1) 0 * x ^ (k + 1 + 1) = 0 := by
      apply Finset.sum_eq_zero
      intro k hk
      rw [Finset.mem_range] at hk
      simp only [List.getD_eq_getElem?_getD]
      rw [List.getElem?_set_ne (by omega), List.getElem?_set_ne (by omega),
        List.getElem?_set_ne (by omega), List.getElem?_replicate, if_pos (by omega)]
      simp
    rw [hz0]
    simp
    ring
  rw [hp]
  linear_combination (-2 * r) * hs

theorem odd_eval (nz : ℕ) (hz : 2 ≤ nz) (r x : K) :
    polyEval (oddCoefs nz r) x
      = (1 - x) * (1 - (2 * r * ∑ i ∈ range nz, x ^ i + r * x ^ nz)) := by
  have hs := geom_sum_mul x nz
  have hp : polyEval (oddCoefs nz r) x = (1 - 2 * r) - x + r * x ^ nz + r * x ^ (nz + 1) := by
    unfold polyEval oddCoefs
    simp only [List.length_set, List.length_replicate]
    obtain ⟨m, rfl⟩ : ∃ m, nz = m + 2 := ⟨nz - 2, by omega⟩
    rw [Finset.sum_range_succ, Finset.sum_range_succ, Finset.sum_range_succ', Finset.sum_range_succ']
    have hz0 : ∑ k ∈ range m, (((((List.replicate (m + 2 + 2) (0 : K)).set 0 (1 - 2 * r)).set 1
        (-1)).set (m + 2) r).set (m + 2 + 1) r).getD (k + 1 + 1) 0 * x ^ (k + 1 + 1) = 0 := by
      apply Finset.sum_eq_zero
      intro k hk
      rw [Finset.mem_range] at hk
      simp only [List.getD_eq_getElem?_getD]
      rw [List.getElem?_set_ne (by omega), List.getElem?_set_ne (by omega),
        List.getElem?_set_ne (by omega), List.getElem?_set_ne (by omega),
        List.getElem?_replicate, if_pos (by omega)]
      simp
    rw [hz0]
    simp
    ring
  rw [hp]
  linear_combination (-2 * r) * hs

/-- **C11** (exact roots).  If the polynomial solver returns exact roots, the ratios sum to
exactly one: the accepted root is never the spurious root `x = 1`. -/
theorem segment_ratios_sum_exact (roots : List K → List K)
    (hroots : ∀ c, ∀ x ∈ roots c, polyEval c x = 0) (n : ℤ) (r : K) (l : List K)
    (h : segmentRatios roots n r = .ok l) : l.sum = 1 := by
  unfold segmentRatios at h
  split_ifs at h with h1 h2 h3 h4 h5 h6 h7
  · simp only [Except.ok.injEq] at h; simp [← h]
  · simp only [Except.ok.injEq] at h; simp [← h]; norm_num
  · simp only [Except.ok.injEq] at h; simp [← h]; ring
  · simp only [Except.ok.injEq] at h
    have hn : (0 : K) < n := by exact_mod_cast (by omega : 0 < n)
    have hcast : ((n.toNat : ℕ) : K) = (n : K) := by
      rw [← Int.cast_natCast, Int.toNat_of_nonneg (by omega)]
    rw [← h, List.sum_replicate, nsmul_eq_mul, hcast, mul_one_div_cancel hn.ne']
  · obtain ⟨x, hx, rfl, ha⟩ := firstAccepted_ok _ _ _ h
    rw [accept_iff] at ha
    have he := hroots _ x hx
    rw [even_eval _ (by omega)] at he
    have hsum : (dz (n.toNat / 2) r x ++ (dz (n.toNat / 2) r x).reverse).sum
        = 2 * r * ∑ i ∈ range (n.toNat / 2), x ^ i := by
      rw [List.sum_append, List.sum_reverse, dz_sum]; ring
    rcases mul_eq_zero.mp he with hx1 | hx1
    · exfalso
      have : x = 1 := by linear_combination -hx1
      subst this
      apply h6
      have := ha.1
      rw [hsum] at this
      have hcast : (((n.toNat / 2 : ℕ) : K)) * 2 = (n : K) := by
        have : ((n.toNat / 2 * 2 : ℕ) : K) = ((n.toNat : ℕ) : K) := by congr 1; omega
        rw [Nat.cast_mul] at this
        rw [show ((n : ℤ) : K) = ((n.toNat : ℕ) : K) by
          rw [← Int.cast_natCast, Int.toNat_of_nonneg (by omega)], ← this]
        norm_num
      rw [show (1 : K) - (n : K) * r = 1 - 2 * r * ∑ i ∈ range (n.toNat / 2), (1 : K) ^ i by
        rw [← hcast]; simp; ring]
      exact this
    · rw [hsum]; linear_combination -hx1
  · obtain ⟨x, hx, rfl, ha⟩ := firstAccepted_ok _ _ _ h
    rw [accept_iff] at ha
    have he := hroots _ x hx
    rw [odd_eval _ (by omega)] at he
    have hsum : (dz ((n.toNat - 1) / 2) r x ++ [x ^ ((n.toNat - 1) / 2) * r]
        ++ (dz ((n.toNat - 1) / 2) r x).reverse).sum
        = 2 * r * ∑ i ∈ range ((n.toNat - 1) / 2), x ^ i + r * x ^ ((n.toNat - 1) / 2) := by
      rw [List.sum_append, List.sum_append, List.sum_reverse, dz_sum]; simp; ring
    rcases mul_eq_zero.mp he with hx1 | hx1
    · exfalso
      have : x = 1 := by linear_combination -hx1
      subst this
      apply h6
      have := ha.1
      rw [hsum] at this
      have hcast : ((((n.toNat - 1) / 2 : ℕ) : K)) * 2 + 1 = (n : K) := by
        have : (((n.toNat - 1) / 2 * 2 + 1 : ℕ) : K) = ((n.toNat : ℕ) : K) := by congr 1; omega
        rw [Nat.cast_add, Nat.cast_mul] at this
        rw [show ((n : ℤ) : K) = ((n.toNat : ℕ) : K) by
          rw [← Int.cast_natCast, Int.toNat_of_nonneg (by omega)], ← this]
        norm_num
      rw [show (1 : K) - (n : K) * r = 1 - (2 * r * ∑ i ∈ range ((n.toNat - 1) / 2), (1 : K) ^ i
          + r * 1 ^ ((n.toNat - 1) / 2)) by
        rw [← hcast]; simp; ring]
      exact this
    · rw [hsum]; linear_combination -hx1

end generic

/-- Specification of an exact real root solver: it lists exactly the real roots of every
polynomial that has a non-zero coefficient. -/
def ExactRoots (roots : List ℝ → List ℝ) : Prop :=
  ∀ c : List ℝ, (∃ i, c.getD i 0 ≠ 0) → ∀ x, x ∈ roots c ↔ polyEval c x = 0

/-- Such a solver exists. -/
theorem exactRoots_exists : ∃ roots, ExactRoots roots := by
  classical
  refine ⟨fun c => (∑ i ∈ range c.length, Polynomial.C (c.getD i 0) * Polynomial.X ^ i
    : Polynomial ℝ).roots.toList, ?_⟩
  rintro c ⟨i, hi⟩ x
  have hne : (∑ i ∈ range c.length, Polynomial.C (c.getD i 0) * Polynomial.X ^ i
      : Polynomial ℝ) ≠ 0 := by
    intro h0
    apply hi
    have hlt : i < c.length := by
      by_contra hge
      exact hi (List.getD_eq_default _ _ (by omega))
    have := congrArg (fun p : Polynomial ℝ => p.coeff i) h0
    simpa [Polynomial.finsetSum_coeff, Polynomial.coeff_C_mul, Polynomial.coeff_X_pow, hlt] using this
  rw [Multiset.mem_toList, Polynomial.mem_roots hne, Polynomial.IsRoot.def]
  simp [polyEval, Polynomial.eval_finsetSum]

theorem even_ne (nz : ℕ) (hz : 2 ≤ nz) (r : ℝ) : ∃ i, (evenCoefs nz r).getD i 0 ≠ 0 := by
  refine ⟨1, ?_⟩
  unfold evenCoefs
  rw [List.getD_eq_getElem?_getD, List.getElem?_set_ne (by omega), List.getElem?_set_self (by simp; omega)]
  simp

theorem odd_ne (nz : ℕ) (hz : 2 ≤ nz) (r : ℝ) : ∃ i, (oddCoefs nz r).getD i 0 ≠ 0 := by
  refine ⟨1, ?_⟩
  unfold oddCoefs
  rw [List.getD_eq_getElem?_getD, List.getElem?_set_ne (by omega), List.getElem?_set_ne (by omega),
    List.getElem?_set_self (by simp)]
  simp

/-- **C11** (no failure).  Over the reals, with a solver that returns exactly the real roots,
`segment_ratios` returns for all admissible arguments: a positive expansion factor always
exists. -/
theorem segment_ratios_total (roots : List ℝ → List ℝ)
    (hroots : ExactRoots roots) (n : ℤ) (r : ℝ) (hn : 1 ≤ n)
    (hr : 3 ≤ n → 0 < r ∧ r < 1 / 2) : ∃ l, segmentRatios roots n r = .ok l := by
  have hsmall : (0 : ℝ) < 1 / 10 ^ 6 := by positivity
  unfold segmentRatios
  rw [if_neg (not_not.mpr hn), if_neg (by
    rw [not_not]
    by_cases h3 : n ≤ 2
    · exact Or.inl h3
    · exact Or.inr (hr (by omega)))]
  by_cases h1 : n = 1
  · rw [if_pos h1]; exact ⟨_, rfl⟩
  rw [if_neg h1]
  by_cases h2 : n = 2
  · rw [if_pos h2]; exact ⟨_, rfl⟩
  rw [if_neg h2]
  by_cases h3 : n = 3
  · rw [if_pos h3]; exact ⟨_, rfl⟩
  rw [if_neg h3]
  by_cases h4 : |1 - (n : ℝ) * r| < 1 / 10 ^ 6
  · rw [if_pos h4]; exact ⟨_, rfl⟩
  rw [if_neg h4]
  obtain ⟨hr0, hr1⟩ := hr (by omega)
  -- existence of a positive factor with sum one
  have hex : ∀ (g : ℝ → ℝ), Continuous g → g 0 = 2 * r → 1 ≤ g (1 / r) → ∃ x, 0 < x ∧ g x = 1 := by
    intro g hg h0 hinf
    obtain ⟨x, hx, hgx⟩ := intermediate_value_Icc (by positivity : (0 : ℝ) ≤ 1 / r)
      hg.continuousOn ⟨by rw [h0]; linarith, hinf⟩
    refine ⟨x, lt_of_le_of_ne hx.1 ?_, hgx⟩
    rintro rfl
    rw [h0] at hgx
    linarith
  have hone : ∀ m : ℕ, 2 ≤ m → 1 ≤ 2 * r * ∑ i ∈ range m, (1 / r) ^ i := by
    intro m hm
    have h01 : ∑ i ∈ range 2, (1 / r) ^ i ≤ ∑ i ∈ range m, (1 / r) ^ i :=
      Finset.sum_le_sum_of_subset_of_nonneg (by simpa using hm) fun i _ _ => by positivity
    have h02 : ∑ i ∈ range 2, (1 / r) ^ i = 1 + 1 / r := by simp [Finset.sum_range_succ]
    rw [h02] at h01
    have h03 : 2 * r * (1 + 1 / r) = 2 * r + 2 := by field_simp
    nlinarith
  have hzero : ∀ m : ℕ, 2 ≤ m → ∑ i ∈ range m, (0 : ℝ) ^ i = 1 := by
    intro m hm
    obtain ⟨k, rfl⟩ : ∃ k, m = k + 1 := ⟨m - 1, by omega⟩
    rw [Finset.sum_range_succ']; simp
  have hdz : ∀ (m : ℕ) (x : ℝ), 0 < x → ∀ v ∈ dz m r x, 0 < v := by
    intro m x hx v hv
    simp only [dz, List.mem_map] at hv
    obtain ⟨i, -, rfl⟩ := hv
    positivity
  split_ifs with h5
  · set nz := n.toNat / 2 with hnz
    have hz : 2 ≤ nz := by omega
    obtain ⟨x, hx, hgx⟩ := hex (fun x => 2 * r * ∑ i ∈ range nz, x ^ i) (by fun_prop)
      (by simp only [hzero nz hz, mul_one]) (hone nz hz)
    refine firstAccepted_isOk _ _ x ?_ ?_
    · rw [hroots _ (even_ne nz hz r), even_eval nz hz, hgx]; ring
    · rw [accept_iff]
      constructor
      · rw [List.sum_append, List.sum_reverse, dz_sum]
        rw [show (1 : ℝ) - (r * ∑ i ∈ range nz, x ^ i + r * ∑ i ∈ range nz, x ^ i) = 0 by
          linear_combination -hgx, abs_zero]
        exact hsmall
      · intro v hv
        simp only [List.mem_append, List.mem_reverse, or_self] at hv
        exact hdz nz x hx v hv
  · set nz := (n.toNat - 1) / 2 with hnz
    have hz : 2 ≤ nz := by omega
    obtain ⟨x, hx, hgx⟩ := hex (fun x => 2 * r * ∑ i ∈ range nz, x ^ i + r * x ^ nz) (by fun_prop)
      (by simp only [hzero nz hz, mul_one]; rw [zero_pow (by omega)]; ring)
      (by
        have h1 := hone nz hz
        have h2 : 0 ≤ r * (1 / r) ^ nz := by positivity
        linarith)
    refine firstAccepted_isOk _ _ x ?_ ?_
    · rw [hroots _ (odd_ne nz hz r), odd_eval nz hz, hgx]; ring
    · rw [accept_iff]
      constructor
      · rw [List.sum_append, List.sum_append, List.sum_reverse, dz_sum]
        simp only [List.sum_cons, List.sum_nil]
        rw [show (1 : ℝ) - (r * ∑ i ∈ range nz, x ^ i + (x ^ nz * r + 0)
            + r * ∑ i ∈ range nz, x ^ i) = 0 by linear_combination -hgx, abs_zero]
        exact hsmall
      · intro v hv
        simp only [List.mem_append, List.mem_reverse, List.mem_singleton] at hv
        rcases hv with (hv | rfl) | hv
        · exact hdz nz x hx v hv
        · positivity
        · exact hdz nz x hx v hv

/-- Non-vacuity: for four segments with end ratio 1/6 the factor is 2; the ratios are
1/6, 1/3, 1/3, 1/6. -/
example : segmentRatios (fun _ => [1, 2]) 4 (1 / 6 : ℚ) = .ok [1 / 6, 1 / 3, 1 / 3, 1 / 6] := by
  simp [segmentRatios, firstAccepted, accept, dz, List.range_succ]
  norm_num [abs_of_pos]

/-- Non-vacuity: in this example 1 and 2 are exact roots of the polynomial. -/
example : polyEval (evenCoefs 2 (1 / 6 : ℚ)) 2 = 0 := by
  norm_num [polyEval, evenCoefs, Finset.sum_range_succ]

end Verif.Util
