import Verif.Util.TimeModel

/-!
# Properties C08, C09: load aggregation time grids
-/

set_option linter.unusedSectionVars false

namespace Verif.Util

open Finset

variable {K : Type*} [Field K] [LinearOrder K] [IsStrictOrderedRing K] [Archimedean K]

/-- Specification of a time grid: `n` cells with the given widths (in units of `dt`), as many
as needed to reach `tmax`. -/
structure IsGrid (dt tmax : K) (width : ℕ → K) (time : List K) : Prop where
  /-- the `k`-th time is `dt` times the sum of the first `k+1` widths -/
  value : ∀ k (h : k < time.length), time[k] = dt * ∑ m ∈ range (k + 1), width m
  /-- all times but the last are before `tmax` -/
  before : ∀ t ∈ time.dropLast, t < tmax
  /-- the last time reaches `tmax` -/
  reach : ∀ t ∈ time.getLast?, tmax ≤ t
  /-- the grid is empty only if there is nothing to cover -/
  nonempty : 0 < tmax → time ≠ []

/-- Partial sums of the grid. -/
def gridTimes (dt : K) (width : ℕ → K) (n : ℕ) : List K :=
  (List.range n).map fun k => dt * ∑ m ∈ range (k + 1), width m

theorem gridTimes_succ (dt : K) (width : ℕ → K) (n : ℕ) :
    gridTimes dt width (n + 1) = gridTimes dt width n ++ [dt * ∑ m ∈ range (n + 1), width m] := by
  simp [gridTimes, List.range_succ]

theorem isGrid_of (dt tmax : K) (width : ℕ → K) (n : ℕ)
    (hlt : ∀ k < n, dt * ∑ m ∈ range k, width m < tmax)
    (hge : tmax ≤ dt * ∑ m ∈ range n, width m) : IsGrid dt tmax width (gridTimes dt width n) := by
  constructor
  · intro k h
    simp [gridTimes]
  · intro t ht
    cases n with
    | zero => simp [gridTimes] at ht
    | succ n =>
      rw [gridTimes_succ, List.dropLast_concat] at ht
      simp only [gridTimes, List.mem_map, List.mem_range] at ht
      obtain ⟨k, hk, rfl⟩ := ht
      exact hlt (k + 1) (by omega)
  · intro t ht
    cases n with
    | zero => simp [gridTimes] at ht
    | succ n =>
      rw [gridTimes_succ] at ht
      simp at ht
      rw [← ht]; exact hge
  · intro h0 he
    cases n with
    | zero => simp at hge; exact absurd h0 (not_lt.mpr hge)
    | succ n => rw [gridTimes_succ] at he; simp at he

/-- Widths of at least one make the grid strictly increasing. -/
theorem IsGrid.increasing {dt tmax : K} {width : ℕ → K} {time : List K} (hdt : 0 < dt)
    (hw : ∀ k, 1 ≤ width k) (h : IsGrid dt tmax width time) : time.Pairwise (· < ·) := by
  rw [List.pairwise_iff_getElem]
  intro i j hi hj hij
  rw [h.value i hi, h.value j hj]
  apply mul_lt_mul_of_pos_left _ hdt
  refine Finset.sum_lt_sum_of_subset (i := i + 1) (by simp; omega) (by simp; omega) (by simp)
    (lt_of_lt_of_le one_pos (hw _)) fun k _ _ => le_trans zero_le_one (hw _)

theorem IsGrid.head {dt tmax : K} {width : ℕ → K} {time : List K} (h : IsGrid dt tmax width time)
    (h0 : 0 < tmax) : time.head? = some (dt * width 0) := by
  have hne := h.nonempty h0
  have hlen : 0 < time.length := List.length_pos_iff.mpr hne
  have := h.value 0 hlen
  rw [List.head?_eq_getElem?, List.getElem?_eq_getElem hlen, this]
  simp

/-- Termination: with widths of at least one, some partial sum reaches `tmax`. -/
theorem reach (dt tmax : K) (hdt : 0 < dt) (width : ℕ → K) (hw : ∀ k, 1 ≤ width k) :
    ∃ n, tmax ≤ dt * ∑ m ∈ range n, width m := by
  obtain ⟨n, hn⟩ := Archimedean.arch tmax hdt
  refine ⟨n, hn.trans ?_⟩
  rw [nsmul_eq_mul, mul_comm]
  apply mul_le_mul_of_nonneg_left _ hdt.le
  calc (n : K) = ∑ m ∈ range n, (1 : K) := by simp
    _ ≤ _ := Finset.sum_le_sum fun k _ => hw k

theorem ceil_div (i c : ℕ) (hc : 1 ≤ c) : ⌈((i + 1 : ℕ) : ℚ) / (c : ℚ)⌉₊ - 1 = i / c := by
  have hc' : (0 : ℚ) < c := by exact_mod_cast hc
  have : ⌈((i + 1 : ℕ) : ℚ) / (c : ℚ)⌉₊ = i / c + 1 := by
    rw [Nat.ceil_eq_iff (Nat.succ_ne_zero _)]
    have h1 := Nat.div_add_mod i c
    have h2 := Nat.mod_lt i hc
    constructor
    · rw [lt_div_iff₀ hc']
      have : (i / c) * c < i + 1 := by rw [mul_comm]; omega
      simpa using (by exact_mod_cast this : (((i / c : ℕ)) : ℚ) * c < ((i + 1 : ℕ) : ℚ))
    · rw [div_le_iff₀ hc']
      have : i + 1 ≤ (i / c + 1) * c := by rw [add_mul, mul_comm]; omega
      exact_mod_cast this
  rw [this, Nat.add_sub_cancel]

theorem cj_iterate (dt : K) (c : ℕ) (hc : 1 ≤ c) (n : ℕ) :
    (cjBody dt c)^[n] cjInit
      = ⟨dt * ∑ m ∈ range n, 2 ^ (m / c), n, gridTimes dt (fun m => 2 ^ (m / c)) n⟩ := by
  induction n with
  | zero => simp [cjInit, gridTimes]
  | succ n ih =>
    rw [Function.iterate_succ_apply', ih]
    simp only [cjBody]
    rw [ceil_div n c hc, gridTimes_succ, Finset.sum_range_succ]
    have : dt * ∑ m ∈ range n, (2 : K) ^ (m / c) + 2 ^ (n / c) * dt
        = dt * (∑ m ∈ range n, (2 : K) ^ (m / c) + 2 ^ (n / c)) := by ring
    rw [this]

/-- **C08**.  `time_ClaessonJaved` terminates for `dt > 0` and at least one cell per level;
the returned grid has cell widths `2^⌊k/c⌋`, stops at the first time that reaches `tmax`, and
is strictly increasing. -/
theorem time_ClaessonJaved_grid (dt tmax : K) (hdt : 0 < dt) (c : ℕ) (hc : 1 ≤ c) :
    ∃ time, TimeClaessonJaved dt tmax c time ∧ IsGrid dt tmax (fun m => 2 ^ (m / c)) time
      ∧ time.Pairwise (· < ·) ∧ (0 < tmax → time.head? = some dt) := by
  have hw : ∀ k, (1 : K) ≤ 2 ^ (k / c) := fun k => one_le_pow₀ (by norm_num)
  obtain ⟨n, hn⟩ := reach dt tmax hdt (fun m => 2 ^ (m / c)) hw
  obtain ⟨m, -, hk, hl⟩ := Loop.exists_of_iterate (cond := cjCond tmax) (body := cjBody dt c)
    cjInit n (by rw [cj_iterate dt c hc]; simpa [cjCond] using hn)
  have hstop := hl.not_cond
  rw [cj_iterate dt c hc] at hl hstop
  have hg : IsGrid dt tmax (fun m => 2 ^ (m / c)) (gridTimes dt (fun m => (2 : K) ^ (m / c)) m) := by
    apply isGrid_of
    · intro k hkm
      have := hk k hkm
      rw [cj_iterate dt c hc] at this
      exact this
    · simpa [cjCond] using hstop
  refine ⟨_, ⟨_, hl, rfl⟩, hg, hg.increasing hdt hw, fun h0 => ?_⟩
  rw [hg.head h0]; simp

/-- The result of `time_ClaessonJaved` is unique. -/
theorem time_ClaessonJaved_unique (dt tmax : K) (c : ℕ) (t₁ t₂ : List K)
    (h₁ : TimeClaessonJaved dt tmax c t₁) (h₂ : TimeClaessonJaved dt tmax c t₂) : t₁ = t₂ := by
  obtain ⟨s₁, l₁, rfl⟩ := h₁
  obtain ⟨s₂, l₂, rfl⟩ := h₂
  rw [l₁.det l₂]

/-- Every time of a Claesson-Javed grid is an integer multiple of `dt`, and the cell widths
never decrease (C08). -/
theorem time_ClaessonJaved_multiples (dt tmax : K) (hdt : 0 < dt) (c : ℕ) (hc : 1 ≤ c)
    (time : List K) (h : TimeClaessonJaved dt tmax c time) :
    (∀ t ∈ time, ∃ m : ℕ, t = m * dt) ∧
      ∀ i j : ℕ, i ≤ j → (2 : K) ^ (i / c) ≤ 2 ^ (j / c) := by
  obtain ⟨time', h', hg, -⟩ := time_ClaessonJaved_grid dt tmax hdt c hc
  obtain rfl := time_ClaessonJaved_unique dt tmax c _ _ h h'
  constructor
  · intro t ht
    obtain ⟨k, hk, rfl⟩ := List.getElem_of_mem ht
    refine ⟨∑ m ∈ range (k + 1), 2 ^ (m / c), ?_⟩
    rw [hg.value k hk]
    push_cast
    ring
  · intro i j hij
    exact pow_le_pow_right₀ (by norm_num) (Nat.div_le_div_right hij)

/-- Non-vacuity for C08. -/
example : (0 : ℚ) < 3600 ∧ 1 ≤ 5 := by norm_num

/-- Width of the `k`-th cell of the Marcotte-Pasquier grid. -/
def mpWidth (n k : ℕ) : K := 2 ^ (k + 1 - n)

theorem mp_iterate (dt : K) (n k : ℕ) :
    (mpBody dt n)^[k] mpInit
      = ⟨dt * ∑ m ∈ range k, mpWidth n m, k, 2 ^ (k - n), gridTimes dt (mpWidth n) k⟩ := by
  induction k with
  | zero => simp [mpInit, gridTimes]
  | succ k ih =>
    rw [Function.iterate_succ_apply', ih]
    simp only [mpBody]
    have hw : (if k + 1 > n then 2 * (2 : K) ^ (k - n) else 2 ^ (k - n)) = 2 ^ (k + 1 - n) := by
      split_ifs with h
      · rw [show k + 1 - n = (k - n) + 1 by omega, pow_succ, mul_comm]
      · rw [show k + 1 - n = k - n by omega]
    rw [hw, gridTimes_succ, Finset.sum_range_succ]
    have : dt * ∑ m ∈ range k, (mpWidth n m : K) + 2 ^ (k + 1 - n) * dt
        = dt * (∑ m ∈ range k, mpWidth n m + mpWidth n k) := by rw [mpWidth]; ring
    rw [this]

/-- **C09**.  `time_MarcottePasquier` terminates for `dt > 0`; the first `n` cells have width
`dt`, every later cell is twice as wide as the one before; the grid stops at the first time
that reaches `tmax` and is strictly increasing; it starts at `dt` if there is at least one
cell of constant width. -/
theorem time_MarcottePasquier_grid (dt tmax : K) (hdt : 0 < dt) (n : ℕ) :
    ∃ time, TimeMarcottePasquier dt tmax n time ∧
      IsGrid dt tmax (fun k => if k < n then 1 else 2 ^ (k + 1 - n)) time ∧
      time.Pairwise (· < ·) ∧ (0 < tmax → 1 ≤ n → time.head? = some dt) := by
  have hwe : (fun k => if k < n then (1 : K) else 2 ^ (k + 1 - n)) = mpWidth n := by
    funext k
    simp only [mpWidth]
    split_ifs with h
    · rw [show k + 1 - n = 0 by omega, pow_zero]
    · rfl
  rw [hwe]
  have hw : ∀ k, (1 : K) ≤ mpWidth n k := fun k => one_le_pow₀ (by norm_num)
  obtain ⟨N, hN⟩ := reach dt tmax hdt (mpWidth n) hw
  obtain ⟨m, -, hk, hl⟩ := Loop.exists_of_iterate (cond := mpCond tmax) (body := mpBody dt n)
    mpInit N (by rw [mp_iterate dt n]; simpa [mpCond] using hN)
  have hstop := hl.not_cond
  rw [mp_iterate dt n] at hl hstop
  have hg : IsGrid dt tmax (mpWidth n) (gridTimes dt (mpWidth n) m) := by
    apply isGrid_of
    · intro k hkm
      have := hk k hkm
      rw [mp_iterate dt n] at this
      exact this
    · simpa [mpCond] using hstop
  refine ⟨_, ⟨_, hl, rfl⟩, hg, hg.increasing hdt hw, fun h0 hn => ?_⟩
  rw [hg.head h0, mpWidth, show 0 + 1 - n = 0 by omega, pow_zero, mul_one]

/-- The result of `time_MarcottePasquier` is unique. -/
theorem time_MarcottePasquier_unique (dt tmax : K) (n : ℕ) (t₁ t₂ : List K)
    (h₁ : TimeMarcottePasquier dt tmax n t₁) (h₂ : TimeMarcottePasquier dt tmax n t₂) :
    t₁ = t₂ := by
  obtain ⟨s₁, l₁, rfl⟩ := h₁
  obtain ⟨s₂, l₂, rfl⟩ := h₂
  rw [l₁.det l₂]

/-- With `non_expanding_cells = 0` the first cell is already doubled: the grid starts at
`2 * dt` (C09). -/
theorem time_MarcottePasquier_zero (dt tmax : K) (hdt : 0 < dt) (h0 : 0 < tmax) (time : List K)
    (h : TimeMarcottePasquier dt tmax 0 time) : time.head? = some (2 * dt) := by
  obtain ⟨time', h', hg, -⟩ := time_MarcottePasquier_grid dt tmax hdt 0
  obtain rfl := time_MarcottePasquier_unique dt tmax 0 _ _ h h'
  rw [hg.head h0]
  simp [mul_comm]

/-- Non-vacuity for C09. -/
example : (0 : ℚ) < 3600 ∧ (0 : ℚ) < 31536000 ∧ 1 ≤ 48 := by norm_num

end Verif.Util
