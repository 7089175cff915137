import Verif.LoadAgg.CJKernel

/-!
# Response of the Claesson-Javed cells to a constant load (lemmas for C129)

`held G w n m` is what the scheme with `n + 1` cells gives `m` time steps after a unit step of the
load.  It is compared with the response `G m` itself.
-/

set_option linter.unusedSectionVars false

namespace Verif.LoadAgg.CJ

open Finset

variable {K : Type*} [Field K] [LinearOrder K] [IsStrictOrderedRing K] {w : ℕ → ℕ}

/-- A step response at equal time steps that starts at zero, never decreases, and levels off: each
increment is at most the one before, and the increments fall ever more slowly. -/
structure LevelsOff (G : ℕ → K) : Prop where
  zero : G 0 = 0
  mono : ∀ i, G i ≤ G (i + 1)
  slower : ∀ i, G (i + 2) - G (i + 1) ≤ G (i + 1) - G i
  convex : ∀ i, (G (i + 2) - G (i + 1)) - (G (i + 3) - G (i + 2))
    ≤ (G (i + 1) - G i) - (G (i + 2) - G (i + 1))

/-- Increment of the response from one step to the next. -/
def inc (G : ℕ → K) (i : ℕ) : K := G (i + 1) - G i

namespace LevelsOff

variable {G : ℕ → K} (h : LevelsOff G)
include h

theorem inc_nonneg (i : ℕ) : 0 ≤ inc G i := sub_nonneg.mpr (h.mono i)

theorem inc_anti : Antitone (inc G) := antitone_nat_of_succ_le h.slower

theorem G_mono : Monotone G := monotone_nat_of_le_succ h.mono

theorem slope_mono : Monotone fun i => inc G (i + 1) - inc G i := by
  refine monotone_nat_of_le_succ fun i => ?_
  have := h.convex i
  simp only [inc]
  linarith

/-- The chord through two neighbouring increments lies below all increments. -/
theorem line_le (i l : ℕ) :
    inc G i + ((l : K) - i) * (inc G (i + 1) - inc G i) ≤ inc G l := by
  rcases le_total i l with hl | hl
  · obtain ⟨p, rfl⟩ := Nat.exists_eq_add_of_le hl
    induction p with
    | zero => simp
    | succ p ih =>
      have h1 := ih (by omega)
      have h2 : inc G (i + 1) - inc G i ≤ inc G (i + p + 1) - inc G (i + p) :=
        h.slope_mono (by omega : i ≤ i + p)
      rw [← add_assoc]
      push_cast at h1 ⊢
      linarith
  · obtain ⟨p, rfl⟩ := Nat.exists_eq_add_of_le hl
    have key : inc G (l + p) - inc G l ≤ p * (inc G (l + p + 1) - inc G (l + p)) := by
      clear hl
      induction p with
      | zero => simp
      | succ p ih =>
        have h2 : inc G (l + p + 1) - inc G (l + p) ≤ inc G (l + p + 1 + 1) - inc G (l + p + 1) :=
          h.slope_mono (by omega : l + p ≤ l + p + 1)
        have h3 := mul_le_mul_of_nonneg_left h2 (by positivity : (0 : K) ≤ (p : K) + 1)
        rw [← add_assoc]
        push_cast
        linarith
    push_cast
    linarith

theorem add_ge_line (i e v : ℕ) :
    v * inc G i + (inc G (i + 1) - inc G i) * (v * e + v * (v - 1) / 2 - i * v)
      ≤ G (e + v) - G e := by
  induction v with
  | zero => simp
  | succ v ih =>
    have h1 := h.line_le i (e + v)
    have h2 : G (e + (v + 1)) = G (e + v) + inc G (e + v) := by rw [← add_assoc]; simp [inc]
    rw [h2]
    push_cast at h1 ⊢
    linarith

theorem add_le (e v : ℕ) : G (e + v) - G e ≤ v * inc G e := by
  induction v with
  | zero => simp
  | succ v ih =>
    have h1 : inc G (e + v) ≤ inc G e := h.inc_anti (by omega)
    have h2 : G (e + (v + 1)) = G (e + v) + inc G (e + v) := by rw [← add_assoc]; simp [inc]
    rw [h2]
    push_cast
    linarith

theorem add_ge (a p T : ℕ) (hT : a + p ≤ T) : G a + p * inc G T ≤ G (a + p) := by
  induction p with
  | zero => simp
  | succ p ih =>
    have h1 : inc G T ≤ inc G (a + p) := h.inc_anti (by omega)
    have h2 : G (a + (p + 1)) = G (a + p) + inc G (a + p) := by rw [← add_assoc]; simp [inc]
    have := ih (by omega)
    rw [h2]
    push_cast
    linarith

theorem steps_le (m T : ℕ) (hm : m ≤ T) : m * inc G T ≤ G m := by
  have := h.add_ge 0 m T (by omega)
  simpa [h.zero] using this

end LevelsOff

/-- Increment of the response over cell `k`. -/
def cellInc (G : ℕ → K) (w : ℕ → ℕ) (k : ℕ) : K := G (edge w (k + 1)) - G (edge w k)

/-- Response of `n + 1` cells, `j` time steps after a load pulse of one step. -/
def pulse (G : ℕ → K) (w : ℕ → ℕ) (n j : ℕ) : K := ∑ k ∈ range (n + 1), cellInc G w k * kern w j k

/-- Response of `n + 1` cells to a unit load during `m` time steps. -/
def held (G : ℕ → K) (w : ℕ → ℕ) (n m : ℕ) : K := ∑ j ∈ range m, pulse G w n j

/-- All cells that can be reached hold the whole unit load. -/
theorem mass_le (hw0 : w 0 = 1) (hw : ∀ k, 1 ≤ w k) (n j : ℕ) :
    ∑ k ∈ range (n + 1), (w k : K) * kern w j k ≤ 1 := by
  have nn : ∀ k, (0 : K) ≤ w k * kern w j k := fun k =>
    mul_nonneg (Nat.cast_nonneg _) (kern_nonneg hw j k)
  rw [← mass (K := K) hw0 hw j]
  calc ∑ k ∈ range (n + 1), (w k : K) * kern w j k
      ≤ ∑ k ∈ range (n + 1 + (j + 1)), (w k : K) * kern w j k :=
        sum_le_sum_of_subset_of_nonneg (by simp) fun k _ _ => nn k
    _ = ∑ k ∈ range (j + 1), (w k : K) * kern w j k := by
        symm
        apply sum_subset (by simp)
        intro k _ hk
        rw [kern_support j k (by simp at hk; omega), mul_zero]

section upper

variable {G : ℕ → K}

/-- Part of the response above the line of slope `lam`. -/
def above (G : ℕ → K) (lam : K) (x : ℕ) : K := ∑ i ∈ range x, max (inc G i - lam) 0

theorem above_mono (lam : K) : Monotone (above G lam) :=
  monotone_nat_of_le_succ fun x => by
    rw [above, above, sum_range_succ]; linarith [le_max_right (inc G x - lam) 0]

theorem above_le (h : LevelsOff G) (m x : ℕ) :
    above G (inc G m) x ≤ G m - inc G m * m := by
  have h1 : above G (inc G m) m = G m - inc G m * m := by
    suffices ∀ p ≤ m, above G (inc G m) p = G p - inc G m * p from this m le_rfl
    intro p hp
    induction p with
    | zero => simp [above, h.zero]
    | succ p ih =>
      have := h.inc_anti (by omega : p ≤ m)
      rw [above, sum_range_succ, max_eq_left (by linarith), ← above, ih (by omega)]
      simp only [inc]; push_cast; ring
  rcases le_total x m with hx | hx
  · exact (above_mono _ hx).trans h1.le
  · obtain ⟨p, rfl⟩ := Nat.exists_eq_add_of_le hx
    rw [← h1]
    clear hx
    induction p with
    | zero => simp
    | succ p ih =>
      have := h.inc_anti (by omega : m ≤ m + p)
      rw [← add_assoc, above, sum_range_succ, max_eq_right (by linarith), add_zero]
      exact ih

theorem cell_above (lam : K) (e v : ℕ) :
    G (e + v) - G e ≤ lam * v + (above G lam (e + v) - above G lam e) := by
  induction v with
  | zero => simp
  | succ v ih =>
    have h1 : above G lam (e + (v + 1)) = above G lam (e + v) + max (inc G (e + v) - lam) 0 := by
      rw [← add_assoc, above, sum_range_succ]; rfl
    have h2 : G (e + (v + 1)) = G (e + v) + inc G (e + v) := by rw [← add_assoc]; simp [inc]
    rw [h1, h2]
    have := le_max_left (inc G (e + v) - lam) 0
    push_cast
    linarith

/-- The cells never give more than the response itself. -/
theorem held_le (h : LevelsOff G) (hw0 : w 0 = 1) (hw : ∀ k, 1 ≤ w k) (n m : ℕ) :
    held G w n m ≤ G m := by
  have hl := h.inc_nonneg m
  simp only [held, pulse]
  rw [sum_comm]
  simp_rw [← mul_sum]
  have cell : ∀ k, cellInc G w k * ∑ j ∈ range m, kern w j k
      ≤ inc G m * ∑ j ∈ range m, (w k : K) * kern w j k
        + (above G (inc G m) (edge w (k + 1)) - above G (inc G m) (edge w k)) := by
    intro k
    have a0 : (0 : K) ≤ ∑ j ∈ range m, kern w j k := sum_nonneg fun j _ => kern_nonneg hw j k
    have a1 : ∑ j ∈ range m, (kern w j k : K) ≤ 1 := kern_total hw m k
    have c1 := cell_above (G := G) (inc G m) (edge w k) (w k)
    rw [← edge_succ] at c1
    have c2 : above G (inc G m) (edge w k) ≤ above G (inc G m) (edge w (k + 1)) :=
      above_mono _ (edge_mono w (Nat.le_succ k))
    rw [← mul_sum]
    have c3 := mul_le_mul_of_nonneg_right c1 a0
    have c4 := mul_le_mul_of_nonneg_left a1 (sub_nonneg.mpr c2)
    simp only [cellInc]
    linarith
  calc _ ≤ ∑ k ∈ range (n + 1), (inc G m * ∑ j ∈ range m, (w k : K) * kern w j k
        + (above G (inc G m) (edge w (k + 1)) - above G (inc G m) (edge w k))) :=
        sum_le_sum fun k _ => cell k
    _ = inc G m * ∑ j ∈ range m, ∑ k ∈ range (n + 1), (w k : K) * kern w j k
        + above G (inc G m) (edge w (n + 1)) := by
        rw [sum_add_distrib, sum_range_sub (fun k => above G (inc G m) (edge w k)), ← mul_sum,
          sum_comm]
        simp [edge, above]
    _ ≤ inc G m * m + (G m - inc G m * m) := by
        refine add_le_add (mul_le_mul_of_nonneg_left ?_ hl) (above_le h m _)
        calc _ ≤ ∑ j ∈ range m, (1 : K) := sum_le_sum fun j _ => mass_le hw0 hw n j
          _ = m := by simp
    _ = G m := by ring

end upper

section lower

variable {G : ℕ → K}

/-- Enough cells: a pulse gives at least the chord of the increments at a slightly larger age. -/
theorem pulse_ge (h : LevelsOff G) (hw0 : w 0 = 1) (hw : ∀ k, 1 ≤ w k) (c : ℕ)
    (hg : ∀ k, c * w k ≤ c + edge w k) (i j : ℕ) :
    2 * c * inc G i + (inc G (i + 1) - inc G i) * ((2 * c + 1) * j - 2 * c * i)
      ≤ 2 * c * pulse G w j j := by
  have hb : inc G (i + 1) - inc G i ≤ 0 := sub_nonpos.mpr (h.inc_anti (Nat.le_succ i))
  have cell : ∀ k, (2 * c * inc G i - (inc G (i + 1) - inc G i) * (2 * c * i)) * ((w k : K) * kern w j k)
      + (inc G (i + 1) - inc G i) * (2 * c + 1) * ((w k : K) * kern w j k * edge w k)
      ≤ 2 * c * (cellInc G w k * kern w j k) := by
    intro k
    have p := kern_nonneg (K := K) hw j k
    have c1 := h.add_ge_line i (edge w k) (w k)
    rw [← edge_succ] at c1
    have g : (c : K) * w k ≤ c + edge w k := by exact_mod_cast hg k
    have c2 : (inc G (i + 1) - inc G i) * (w k * edge w k)
        ≤ (inc G (i + 1) - inc G i) * (w k * (c * (w k - 1))) := by
      refine mul_le_mul_of_nonpos_left (mul_le_mul_of_nonneg_left ?_ (Nat.cast_nonneg _)) hb
      linarith
    have c3 : (2 * c * inc G i - (inc G (i + 1) - inc G i) * (2 * c * i)) * (w k : K)
        + (inc G (i + 1) - inc G i) * (2 * c + 1) * ((w k : K) * edge w k) ≤ 2 * c * cellInc G w k := by
      have c4 := mul_le_mul_of_nonneg_left c1 (by positivity : (0 : K) ≤ 2 * c)
      simp only [cellInc]
      linarith
    have := mul_le_mul_of_nonneg_right c3 p
    linarith
  rw [pulse, mul_sum]
  refine le_trans (le_of_eq ?_) (sum_le_sum fun k _ => cell k)
  rw [sum_add_distrib, ← mul_sum, ← mul_sum, mass hw0 hw, mean_edge hw0 hw]
  ring

/-- Response at the slightly larger age `(1 + 1/N) m`, times `N`, on the chord. -/
def late (G : ℕ → K) (N m : ℕ) : K := N * G (m + m / N) + (m % N : ℕ) * inc G (m + m / N)

theorem late_step (h : LevelsOff G) (N m : ℕ) (hN : 1 ≤ N) :
    N * (late G N (m + 1) - late G N m)
      ≤ (N + 1) * (N * inc G (m + m / N) + (m % N : ℕ) * (inc G (m + m / N + 1) - inc G (m + m / N))) := by
  have hr := Nat.mod_lt m hN
  have key : late G N (m + 1) - late G N m
      = N * inc G (m + m / N) + (m % N : ℕ) * (inc G (m + m / N + 1) - inc G (m + m / N))
        + inc G (m + m / N + 1) := by
    have hm := Nat.div_add_mod m N
    simp only [late]
    by_cases h1 : m % N + 1 = N
    · have e1 : (m + 1) / N = m / N + 1 := by
        rw [Nat.div_eq_of_lt_le]
        · rw [Nat.add_mul, Nat.mul_comm]; omega
        · rw [Nat.add_mul, Nat.add_mul, Nat.mul_comm]; omega
      have e2 : (m + 1) % N = 0 := by
        have := Nat.div_add_mod (m + 1) N
        rw [e1, Nat.mul_add] at this; omega
      rw [e1, e2, show m + 1 + (m / N + 1) = m + m / N + 2 by omega]
      have e3 : (N : K) = ((m % N : ℕ) : K) + 1 := by exact_mod_cast h1.symm
      rw [e3]
      simp only [inc]
      push_cast
      ring
    · have e1 : (m + 1) / N = m / N := by
        rw [Nat.div_eq_of_lt_le]
        · rw [Nat.mul_comm]; omega
        · rw [Nat.add_mul, Nat.mul_comm]; omega
      have e2 : (m + 1) % N = m % N + 1 := by
        have := Nat.div_add_mod (m + 1) N
        rw [e1] at this; omega
      rw [e1, e2, show m + 1 + m / N = m + m / N + 1 by omega]
      simp only [inc]
      push_cast
      ring
  rw [key]
  have hb : inc G (m + m / N + 1) - inc G (m + m / N) ≤ 0 :=
    sub_nonpos.mpr (h.inc_anti (Nat.le_succ _))
  have hr' : ((m % N : ℕ) : K) ≤ N := by exact_mod_cast hr.le
  have := mul_le_mul_of_nonpos_right hr' hb
  linarith

/-- Enough cells: response to a constant load. -/
theorem full_ge (h : LevelsOff G) (hw0 : w 0 = 1) (hw : ∀ k, 1 ≤ w k) (c : ℕ) (hc : 1 ≤ c)
    (hg : ∀ k, c * w k ≤ c + edge w k) (m : ℕ) :
    late G (2 * c) m ≤ (2 * c + 1) * ∑ j ∈ range m, pulse G w j j := by
  induction m with
  | zero => simp [late, h.zero]
  | succ m ih =>
    have h1 := late_step h (2 * c) m (by omega)
    have h2 := pulse_ge h hw0 hw c hg (m + m / (2 * c)) m
    have h3 : ((2 * c + 1) * m - 2 * c * ((m + m / (2 * c) : ℕ) : K)) = ((m % (2 * c) : ℕ) : K) := by
      have : (m : K) = 2 * c * (m / (2 * c) : ℕ) + (m % (2 * c) : ℕ) := by
        exact_mod_cast (Nat.div_add_mod m (2 * c)).symm
      push_cast at this ⊢
      linear_combination this
    rw [h3] at h2
    have hc' : (0 : K) < 2 * c := by
      have : (1 : K) ≤ c := by exact_mod_cast hc
      linarith
    rw [sum_range_succ]
    push_cast at h1
    have h4 := mul_le_mul_of_nonneg_left h2 (by linarith : (0 : K) ≤ 2 * c + 1)
    have h5 : 2 * (c : K) * (late G (2 * c) (m + 1) - late G (2 * c) m)
        ≤ 2 * c * ((2 * c + 1) * pulse G w m m) := by linarith
    have h6 := le_of_mul_le_mul_left h5 hc'
    linarith

/-- A limited number of cells: what is lost beyond the last cell. -/
theorem pulse_loss (h : LevelsOff G) (hw0 : w 0 = 1) (hw : ∀ k, 1 ≤ w k) (c : ℕ) (hc : 1 ≤ c)
    (hg : ∀ k, c * w k ≤ c + edge w k) (n j : ℕ) :
    2 * c * (edge w (n + 1) : K) ^ 2 * pulse G w j j
      ≤ 2 * c * (edge w (n + 1) : K) ^ 2 * pulse G w n j
        + inc G (edge w (n + 1)) * ((2 * c + 1) * (j : K) ^ 2) := by
  set T := edge w (n + 1) with hT
  have hd := h.inc_nonneg T
  have hci : ∀ k, 0 ≤ cellInc G w k := fun k =>
    sub_nonneg.mpr (h.G_mono (edge_mono w (Nat.le_succ k)))
  have cell : ∀ k, (T : K) ^ 2 * (cellInc G w k * kern w j k)
      ≤ (if k < n + 1 then (T : K) ^ 2 * (cellInc G w k * kern w j k) else 0)
        + inc G T * ((w k : K) * kern w j k * (edge w k : K) ^ 2) := by
    intro k
    have p := kern_nonneg (K := K) hw j k
    split_ifs with hk
    · have : (0 : K) ≤ inc G T * ((w k : K) * kern w j k * (edge w k : K) ^ 2) := by positivity
      linarith
    · have e1 : T ≤ edge w k := edge_mono w (by omega)
      have e2 : (T : K) ≤ edge w k := by exact_mod_cast e1
      have e3 : (T : K) ^ 2 ≤ (edge w k : K) ^ 2 := pow_le_pow_left₀ (Nat.cast_nonneg _) e2 2
      have e4 : cellInc G w k ≤ w k * inc G T := by
        have := h.add_le (edge w k) (w k)
        rw [← edge_succ] at this
        exact this.trans (mul_le_mul_of_nonneg_left (h.inc_anti e1) (Nat.cast_nonneg _))
      have e5 := mul_le_mul_of_nonneg_right e4 p
      have e6 := mul_le_mul e3 e5 (mul_nonneg (hci k) p) (by positivity)
      linarith
  have s1 := sum_le_sum fun k (_ : k ∈ range (j + 1)) => cell k
  rw [sum_add_distrib, ← mul_sum, ← mul_sum, ← sum_filter] at s1
  have s2 : ∑ k ∈ (range (j + 1)).filter (· < n + 1), (T : K) ^ 2 * (cellInc G w k * kern w j k)
      ≤ (T : K) ^ 2 * pulse G w n j := by
    rw [pulse, mul_sum]
    refine sum_le_sum_of_subset_of_nonneg (fun k hk => ?_) fun k _ _ => ?_
    · simp only [mem_filter] at hk; simpa using hk.2
    · have := hci k
      have := kern_nonneg (K := K) hw j k
      positivity
  have s3 := square_edge (K := K) hw0 hw c hc hg j
  have s4 := mul_le_mul_of_nonneg_left s3 hd
  have hc' : (0 : K) ≤ 2 * c := by positivity
  rw [← pulse] at s1
  have s5 := mul_le_mul_of_nonneg_left (s1.trans (add_le_add_left s2 _)) hc'
  linarith

theorem sum_squares (m : ℕ) : 3 * ∑ j ∈ range m, (j : K) ^ 2 ≤ (m : K) ^ 3 := by
  induction m with
  | zero => simp
  | succ m ih =>
    rw [sum_range_succ]; push_cast
    have : (0 : K) ≤ m := Nat.cast_nonneg m
    nlinarith

theorem held_loss (h : LevelsOff G) (hw0 : w 0 = 1) (hw : ∀ k, 1 ≤ w k) (c : ℕ) (hc : 1 ≤ c)
    (hg : ∀ k, c * w k ≤ c + edge w k) (n m : ℕ) :
    3 * (2 * c) * (edge w (n + 1) : K) ^ 2 * late G (2 * c) m
      ≤ 3 * (2 * c) * (2 * c + 1) * (edge w (n + 1) : K) ^ 2 * held G w n m
        + inc G (edge w (n + 1)) * ((2 * c + 1) ^ 2 * (m : K) ^ 3) := by
  have hd := h.inc_nonneg (edge w (n + 1))
  have h1 := full_ge h hw0 hw c hc hg m
  have h2 := sum_le_sum fun j (_ : j ∈ range m) => pulse_loss h hw0 hw c hc hg n j
  rw [sum_add_distrib, ← mul_sum, ← mul_sum, ← mul_sum, ← mul_sum, ← held] at h2
  have h3 := mul_le_mul_of_nonneg_left (sum_squares (K := K) m) hd
  have h4 := mul_le_mul_of_nonneg_left h1
    (by positivity : (0 : K) ≤ 3 * (2 * c) * (edge w (n + 1) : K) ^ 2)
  have h5 := mul_le_mul_of_nonneg_left h2 (by positivity : (0 : K) ≤ 3 * (2 * (c : K) + 1))
  have h6 := mul_le_mul_of_nonneg_left h3 (by positivity : (0 : K) ≤ (2 * (c : K) + 1) ^ 2)
  linarith

/-- Well inside the covered time. -/
theorem held_ge (h : LevelsOff G) (hw0 : w 0 = 1) (hw : ∀ k, 1 ≤ w k) (c : ℕ) (hc : 1 ≤ c)
    (hg : ∀ k, c * w k ≤ c + edge w k) (n m : ℕ)
    (h1 : (2 * c + 1) ^ 2 * m ^ 2 ≤ 6 * c * edge w (n + 1) ^ 2)
    (h2 : (2 * c + 1) * m ≤ 2 * c * edge w (n + 1)) :
    2 * c * G m ≤ (2 * c + 1) * held G w n m := by
  have hl := held_loss h hw0 hw c hc hg n m
  set T := edge w (n + 1) with hT
  have hd := h.inc_nonneg T
  have hT0 : 0 < T := by
    have := edge_mono w (by omega : 1 ≤ n + 1)
    have h0 : edge w 1 = 1 := by simp [edge, hw0]
    omega
  have hlate : 2 * c * G m + m * inc G T ≤ late G (2 * c) m := by
    have hm := Nat.div_add_mod m (2 * c)
    have hi : m + m / (2 * c) ≤ T := by
      have : 2 * c * (m + m / (2 * c)) ≤ 2 * c * T := by
        rw [Nat.mul_add]; nlinarith [Nat.zero_le (m % (2 * c))]
      exact Nat.le_of_mul_le_mul_left this (by omega)
    have a := h.add_ge m (m / (2 * c)) T hi
    have b : inc G T ≤ inc G (m + m / (2 * c)) := h.inc_anti hi
    have a' := mul_le_mul_of_nonneg_left a (by positivity : (0 : K) ≤ 2 * c)
    have b' := mul_le_mul_of_nonneg_left b (Nat.cast_nonneg (α := K) (m % (2 * c)))
    have e : (m : K) = 2 * c * (m / (2 * c) : ℕ) + (m % (2 * c) : ℕ) := by exact_mod_cast hm.symm
    have e' : (m : K) * inc G T
        = 2 * c * ((m / (2 * c) : ℕ) * inc G T) + (m % (2 * c) : ℕ) * inc G T := by
      linear_combination inc G T * e
    simp only [late]
    push_cast
    rw [e']
    linarith
  have hpos : (0 : K) < 3 * (2 * c) * (T : K) ^ 2 := by
    have : (1 : K) ≤ c := by exact_mod_cast hc
    have : (0 : K) < T := by exact_mod_cast hT0
    positivity
  have h1' : (2 * (c : K) + 1) ^ 2 * (m : K) ^ 2 ≤ 3 * (2 * c) * (T : K) ^ 2 := by
    have : (2 * (c : K) + 1) ^ 2 * (m : K) ^ 2 ≤ 6 * c * (T : K) ^ 2 := by exact_mod_cast h1
    linarith
  have h3 := mul_le_mul_of_nonneg_right h1' (by positivity : (0 : K) ≤ m * inc G T)
  have h4 := mul_le_mul_of_nonneg_left hlate hpos.le
  refine le_of_mul_le_mul_left ?_ hpos
  linarith

/-- Up to the end of the covered time. -/
theorem held_ge_end (h : LevelsOff G) (hw0 : w 0 = 1) (hw : ∀ k, 1 ≤ w k) (c : ℕ) (hc : 1 ≤ c)
    (hg : ∀ k, c * w k ≤ c + edge w k) (n m : ℕ) (hm : m ≤ edge w (n + 1)) :
    (2 * c / (2 * c + 1) - (2 * c + 1) * (m : K) ^ 2 / (6 * c * (edge w (n + 1) : K) ^ 2)) * G m
      ≤ held G w n m := by
  have hl := held_loss h hw0 hw c hc hg n m
  set T := edge w (n + 1) with hT
  have hd := h.inc_nonneg T
  have hT0 : 0 < T := by
    have := edge_mono w (by omega : 1 ≤ n + 1)
    have h0 : edge w 1 = 1 := by simp [edge, hw0]
    omega
  have hlate : 2 * c * G m ≤ late G (2 * c) m := by
    have a : G m ≤ G (m + m / (2 * c)) := h.G_mono (Nat.le_add_right _ _)
    have b := mul_nonneg (Nat.cast_nonneg (α := K) (m % (2 * c))) (h.inc_nonneg (m + m / (2 * c)))
    have a' := mul_le_mul_of_nonneg_left a (by positivity : (0 : K) ≤ 2 * c)
    simp only [late]
    push_cast
    linarith
  have hc' : (1 : K) ≤ c := by exact_mod_cast hc
  have hT' : (0 : K) < T := by exact_mod_cast hT0
  have hs := mul_le_mul_of_nonneg_left (h.steps_le m T hm)
    (by positivity : (0 : K) ≤ (2 * c + 1) ^ 2 * (m : K) ^ 2)
  have h4 := mul_le_mul_of_nonneg_left hlate
    (by positivity : (0 : K) ≤ 3 * (2 * c) * (T : K) ^ 2)
  have hpos : (0 : K) < 3 * (2 * c) * (2 * c + 1) * (T : K) ^ 2 := by positivity
  refine le_of_mul_le_mul_left ?_ hpos
  have e : 3 * (2 * (c : K)) * (2 * c + 1) * (T : K) ^ 2
      * ((2 * c / (2 * c + 1) - (2 * c + 1) * (m : K) ^ 2 / (6 * c * (T : K) ^ 2)) * G m)
      = 3 * (2 * c) * (T : K) ^ 2 * (2 * c * G m) - (2 * c + 1) ^ 2 * (m : K) ^ 2 * G m := by
    have : (2 * (c : K) + 1) ≠ 0 := by positivity
    have : (c : K) ≠ 0 := by positivity
    field_simp
    ring
  rw [e]
  linarith

end lower

end Verif.LoadAgg.CJ
