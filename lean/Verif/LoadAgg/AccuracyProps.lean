import Verif.LoadAgg.AccuracyLemmas
import Verif.Util.TimeProps

/-!
# Property C129: how far the Claesson-Javed scheme is from the exact temporal superposition

For response factors that level off (increments per time step that are nonnegative, decrease, and
decrease ever more slowly) the scheme with `c` cells per level

* never gives more than the exact superposition if the loads are nonnegative and never decrease,
* differs from it by at most the fraction `1 / (2 c + 1)` of the sum of the responses to all load
  changes, taken without sign, as long as the simulation covers no more than about the first half of
  the covered time,
* and by at most `1 / (2 c + 1) + (2 c + 1) m² / (6 c T²)` of it after `m` of `T` time steps.
-/

set_option linter.unusedSectionVars false

namespace Verif.LoadAgg.CJ

open Finset Verif.Util

variable {K : Type*} [Field K] [LinearOrder K] [IsStrictOrderedRing K] [Archimedean K]
  {S : Type*} {n : ℕ}

/-- Widths of the cells with `c` cells per level. -/
def levelWidth (c k : ℕ) : ℕ := 2 ^ (k / c)

theorem levelWidth_pos (c k : ℕ) : 1 ≤ levelWidth c k := Nat.one_le_two_pow

theorem level_edge (c : ℕ) (hc : 1 ≤ c) (k : ℕ) :
    c + edge (levelWidth c) k = (c + k % c) * 2 ^ (k / c) := by
  induction k with
  | zero => simp [edge]
  | succ k ih =>
    rw [edge_succ, ← add_assoc, ih, levelWidth]
    have hm := Nat.div_add_mod k c
    have hr := Nat.mod_lt k hc
    by_cases h1 : k % c + 1 = c
    · have e1 : (k + 1) / c = k / c + 1 := by
        rw [Nat.div_eq_of_lt_le]
        · rw [Nat.add_mul, Nat.mul_comm]; omega
        · rw [Nat.add_mul, Nat.add_mul, Nat.mul_comm]; omega
      have e2 : (k + 1) % c = 0 := by
        have := Nat.div_add_mod (k + 1) c
        rw [e1, Nat.mul_add] at this; omega
      rw [e1, e2, pow_succ]
      generalize 2 ^ (k / c) = p
      have : (c + k % c) * p + p = (c + (k % c + 1)) * p := by ring
      rw [this, h1]; ring
    · have e1 : (k + 1) / c = k / c := by
        rw [Nat.div_eq_of_lt_le]
        · rw [Nat.mul_comm]; omega
        · rw [Nat.add_mul, Nat.mul_comm]; omega
      have e2 : (k + 1) % c = k % c + 1 := by
        have := Nat.div_add_mod (k + 1) c
        rw [e1] at this; omega
      rw [e1, e2]; ring

theorem level_growth (c : ℕ) (hc : 1 ≤ c) (k : ℕ) :
    c * levelWidth c k ≤ c + edge (levelWidth c) k := by
  rw [level_edge c hc, levelWidth]
  exact Nat.mul_le_mul_right _ (by omega)

/-- The widths of a Claesson-Javed grid, and its times in time steps. -/
theorem grid_widths (dt tmax : K) (hdt : 0 < dt) (c : ℕ) (hc : 1 ≤ c) (time : List K)
    (ht : TimeClaessonJaved dt tmax c time) (hn : time.length = n + 1) :
    (∀ k : Fin (n + 1), time[k.val]'(by omega) = (edge (levelWidth c) (k + 1) : K) * dt) ∧
      widths dt (fun k : Fin (n + 1) => time[k.val]'(by omega))
        = fun k : Fin (n + 1) => (levelWidth c k : K) := by
  obtain ⟨time', h', hg, -⟩ := time_ClaessonJaved_grid dt tmax hdt c hc
  obtain rfl := time_ClaessonJaved_unique dt tmax c _ _ ht h'
  have hv : ∀ k : Fin (n + 1), time[k.val]'(by omega) = (edge (levelWidth c) (k + 1) : K) * dt := by
    intro k
    rw [hg.value k.val (by omega), mul_comm]
    congr 1
    simp [edge, levelWidth]
  refine ⟨hv, funext fun k => ?_⟩
  simp only [widths]
  split_ifs with hk
  · subst hk; simp [levelWidth]
  · rw [hv, hv, ← sub_mul, mul_div_assoc, div_self hdt.ne', mul_one]
    have e : ((k.pred hk).castSucc : Fin (n + 1)).val + 1 = k.val := by
      have := Fin.val_pred k hk
      have : k.val ≠ 0 := fun h => hk (Fin.ext h)
      simp; omega
    rw [e, edge_succ]
    push_cast
    ring

/-- The result of the scheme is the superposition of the load history with `held`. -/
theorem result_held [Fintype S] (w : ℕ → ℕ) (hw0 : w 0 = 1) (G : S → S → ℕ → K)
    (h0 : ∀ i s, G i s 0 = 0) (ops : List (Op K S)) (hp : Proper ops) (i : S) :
    temporalSuperposition (increments fun i s (k : Fin (n + 1)) => G i s (edge w (k + 1)))
        (run (fun k : Fin (n + 1) => (w k : K)) ops) i
      = ∑ s, superpose (fun k => held (G i s) w n (k + 1)) ((hist ops).map fun l => l s) := by
  simp only [temporalSuperposition]
  refine sum_congr rfl fun s _ => ?_
  rw [superpose_eq_increments, List.length_map]
  have h1 : ∀ k : Fin (n + 1), increments (fun i s (k : Fin (n + 1)) => G i s (edge w (k + 1))) i s k
      = cellInc (G i s) w k := by
    intro k
    simp only [increments, cellInc]
    split_ifs with hk
    · subst hk; simp [edge, h0]
    · have e : ((k.pred hk).castSucc : Fin (n + 1)).val + 1 = k.val := by
        have := Fin.val_pred k hk
        have : k.val ≠ 0 := fun h => hk (Fin.ext h)
        simp; omega
      rw [e]
  have h2 : ∀ j, (if j = 0 then held (G i s) w n (0 + 1)
      else held (G i s) w n (j + 1) - held (G i s) w n (j - 1 + 1)) = pulse (G i s) w n j := by
    intro j
    cases j with
    | zero => simp [held]
    | succ j => simp [held, sum_range_succ]
  simp_rw [h2, h1, run_kern w hw0 ops hp s, mul_sum]
  rw [sum_comm]
  refine sum_congr rfl fun j _ => ?_
  rw [pulse, mul_sum, ← Fin.sum_univ_eq_sum_range
    (fun k => ((hist ops).map fun l => l s).getD j 0 * (cellInc (G i s) w k * kern w j k)) (n + 1)]
  refine sum_congr rfl fun k _ => by ring

/-- The response `m` time steps after a unit step: zero at first, then the value of the function `R`
of time, which is never used at time zero. -/
def stepResponse (R : K → K) (dt : K) (m : ℕ) : K := if m = 0 then 0 else R (m * dt)

theorem stepResponse_succ (R : K → K) (dt : K) (m : ℕ) :
    stepResponse R dt (m + 1) = R ((m + 1 : ℕ) * dt) := by simp [stepResponse]

/-- The result of a simulation on the grid of `time_ClaessonJaved`, with a response `R i s` (as a
function of time) given at the times of the grid. -/
theorem result_grid [Fintype S] (dt tmax : K) (hdt : 0 < dt) (c : ℕ) (hc : 1 ≤ c) (time : List K)
    (ht : TimeClaessonJaved dt tmax c time) (hn : time.length = n + 1) (R : S → S → K → K)
    (ops : List (Op K S)) (hp : Proper ops) (i : S) :
    temporalSuperposition
        (increments fun i s (k : Fin (n + 1)) => R i s (time[k.val]'(by omega)))
        (run (widths dt fun k : Fin (n + 1) => time[k.val]'(by omega)) ops) i
      = ∑ s, superpose (fun k => held (stepResponse (R i s) dt) (levelWidth c) n (k + 1))
          ((hist ops).map fun l => l s) := by
  obtain ⟨hv, hw⟩ := grid_widths dt tmax hdt c hc time ht hn
  rw [hw, ← result_held (levelWidth c) (by simp [levelWidth]) (fun i s => stepResponse (R i s) dt)
    (by simp [stepResponse]) ops hp i]
  congr 2
  funext i s k
  have : edge (levelWidth c) (k + 1) ≠ 0 := by
    rw [edge_succ]; have := levelWidth_pos c k; omega
  rw [hv, stepResponse, if_neg this]

/-- **C129** (never too high).  Nonnegative loads that never decrease: the scheme gives at most the
exact temporal superposition, for any number of time steps. -/
theorem cj_below_exact [Fintype S] (dt tmax : K) (hdt : 0 < dt) (c : ℕ) (hc : 1 ≤ c)
    (time : List K) (ht : TimeClaessonJaved dt tmax c time) (hn : time.length = n + 1)
    (R : S → S → K → K) (hR : ∀ i s, LevelsOff (stepResponse (R i s) dt))
    (ops : List (Op K S)) (hp : Proper ops)
    (hload : ∀ s k, ((hist ops).map fun l => l s).getD (k + 1) 0 ≤ ((hist ops).map fun l => l s).getD k 0)
    (i : S) :
    temporalSuperposition
        (increments fun i s (k : Fin (n + 1)) => R i s (time[k.val]'(by omega)))
        (run (widths dt fun k : Fin (n + 1) => time[k.val]'(by omega)) ops) i
      ≤ ∑ s, superpose (fun k => R i s ((k + 1 : ℕ) * dt)) ((hist ops).map fun l => l s) := by
  rw [result_grid dt tmax hdt c hc time ht hn R ops hp i]
  refine sum_le_sum fun s _ => sum_le_sum fun k _ => ?_
  beta_reduce
  rw [← stepResponse_succ (R i s) dt k]
  exact mul_le_mul_of_nonneg_left
    (held_le (hR i s) (by simp [levelWidth]) (levelWidth_pos c) n (k + 1)) (sub_nonneg.mpr (hload s k))

theorem superpose_close (P G : ℕ → K) (ε : K) (h : List K)
    (hP : ∀ k < h.length, (1 - ε) * G k ≤ P k ∧ P k ≤ G k) :
    |superpose P h - superpose G h|
      ≤ ε * ∑ k ∈ range h.length, |h.getD k 0 - h.getD (k + 1) 0| * G k := by
  rw [superpose, superpose, ← sum_sub_distrib, mul_sum]
  refine (abs_sum_le_sum_abs _ _).trans (sum_le_sum fun k hk => ?_)
  obtain ⟨h1, h2⟩ := hP k (mem_range.mp hk)
  rw [← mul_sub, abs_mul]
  have : |P k - G k| ≤ ε * G k := by
    rw [abs_le]; constructor <;> linarith
  calc _ ≤ |h.getD k 0 - h.getD (k + 1) 0| * (ε * G k) :=
        mul_le_mul_of_nonneg_left this (abs_nonneg _)
    _ = _ := by ring

/-- **C129** (accuracy).  Any loads: within about the first half of the covered time, the scheme
differs from the exact temporal superposition by at most the fraction `1 / (2 c + 1)` of the sum of
the responses to all load changes taken without sign. -/
theorem cj_accuracy [Fintype S] (dt tmax : K) (hdt : 0 < dt) (c : ℕ) (hc : 1 ≤ c)
    (time : List K) (ht : TimeClaessonJaved dt tmax c time) (hn : time.length = n + 1)
    (R : S → S → K → K) (hR : ∀ i s, LevelsOff (stepResponse (R i s) dt))
    (ops : List (Op K S)) (hp : Proper ops) (T : ℕ) (hT : time[n]'(by omega) = T * dt)
    (h1 : (2 * c + 1) ^ 2 * (hist ops).length ^ 2 ≤ 6 * c * T ^ 2)
    (h2 : (2 * c + 1) * (hist ops).length ≤ 2 * c * T) (i : S) :
    |temporalSuperposition
          (increments fun i s (k : Fin (n + 1)) => R i s (time[k.val]'(by omega)))
          (run (widths dt fun k : Fin (n + 1) => time[k.val]'(by omega)) ops) i
        - ∑ s, superpose (fun k => R i s ((k + 1 : ℕ) * dt)) ((hist ops).map fun l => l s)|
      ≤ 1 / (2 * c + 1) * ∑ s, ∑ k ∈ range (hist ops).length,
          |((hist ops).map fun l => l s).getD k 0 - ((hist ops).map fun l => l s).getD (k + 1) 0|
            * R i s ((k + 1 : ℕ) * dt) := by
  rw [result_grid dt tmax hdt c hc time ht hn R ops hp i,
    ← sum_sub_distrib, mul_sum]
  obtain ⟨hv, -⟩ := grid_widths dt tmax hdt c hc time ht hn
  have hT' : edge (levelWidth c) (n + 1) = T := by
    have := hv (Fin.last n)
    simp only [Fin.val_last] at this
    rw [hT] at this
    exact_mod_cast (mul_right_cancel₀ hdt.ne' this).symm
  refine (abs_sum_le_sum_abs _ _).trans (sum_le_sum fun s _ => ?_)
  have := superpose_close (fun k => held (stepResponse (R i s) dt) (levelWidth c) n (k + 1))
    (fun k => stepResponse (R i s) dt (k + 1)) (1 / (2 * c + 1)) ((hist ops).map fun l => l s) ?_
  · rw [List.length_map] at this
    simpa only [stepResponse_succ] using this
  intro k hk
  rw [List.length_map] at hk
  refine ⟨?_, held_le (hR i s) (by simp [levelWidth]) (levelWidth_pos c) n (k + 1)⟩
  have hle : k + 1 ≤ (hist ops).length := hk
  have := held_ge (hR i s) (w := levelWidth c) (by simp [levelWidth]) (levelWidth_pos c) c hc
    (level_growth c hc) n (k + 1)
    (by
      rw [hT']
      exact (Nat.mul_le_mul_left _ (Nat.pow_le_pow_left hle 2)).trans h1)
    (by rw [hT']; exact (Nat.mul_le_mul_left _ hle).trans h2)
  have hpos : (0 : K) < 2 * c + 1 := by positivity
  rw [one_sub_div hpos.ne', div_mul_eq_mul_div, div_le_iff₀ hpos]
  linarith

/-- **C129** (accuracy, whole covered time).  Any loads: the bound up to the last of the `T` time
steps covered by the grid. -/
theorem cj_accuracy_end [Fintype S] (dt tmax : K) (hdt : 0 < dt) (c : ℕ) (hc : 1 ≤ c)
    (time : List K) (ht : TimeClaessonJaved dt tmax c time) (hn : time.length = n + 1)
    (R : S → S → K → K) (hR : ∀ i s, LevelsOff (stepResponse (R i s) dt))
    (ops : List (Op K S)) (hp : Proper ops) (T : ℕ) (hT : time[n]'(by omega) = T * dt)
    (hm : (hist ops).length ≤ T) (i : S) :
    |temporalSuperposition
          (increments fun i s (k : Fin (n + 1)) => R i s (time[k.val]'(by omega)))
          (run (widths dt fun k : Fin (n + 1) => time[k.val]'(by omega)) ops) i
        - ∑ s, superpose (fun k => R i s ((k + 1 : ℕ) * dt)) ((hist ops).map fun l => l s)|
      ≤ (1 / (2 * c + 1) + (2 * c + 1) * ((hist ops).length : K) ^ 2 / (6 * c * (T : K) ^ 2))
        * ∑ s, ∑ k ∈ range (hist ops).length,
          |((hist ops).map fun l => l s).getD k 0 - ((hist ops).map fun l => l s).getD (k + 1) 0|
            * R i s ((k + 1 : ℕ) * dt) := by
  rw [result_grid dt tmax hdt c hc time ht hn R ops hp i,
    ← sum_sub_distrib, mul_sum]
  obtain ⟨hv, -⟩ := grid_widths dt tmax hdt c hc time ht hn
  have hT' : edge (levelWidth c) (n + 1) = T := by
    have := hv (Fin.last n)
    simp only [Fin.val_last] at this
    rw [hT] at this
    exact_mod_cast (mul_right_cancel₀ hdt.ne' this).symm
  refine (abs_sum_le_sum_abs _ _).trans (sum_le_sum fun s _ => ?_)
  have := superpose_close (fun k => held (stepResponse (R i s) dt) (levelWidth c) n (k + 1))
    (fun k => stepResponse (R i s) dt (k + 1))
    (1 / (2 * c + 1) + (2 * c + 1) * ((hist ops).length : K) ^ 2 / (6 * c * (T : K) ^ 2))
    ((hist ops).map fun l => l s) ?_
  · rw [List.length_map] at this
    simpa only [stepResponse_succ] using this
  intro k hk
  rw [List.length_map] at hk
  refine ⟨?_, held_le (hR i s) (by simp [levelWidth]) (levelWidth_pos c) n (k + 1)⟩
  have hle : k + 1 ≤ (hist ops).length := hk
  have := held_ge_end (hR i s) (w := levelWidth c) (by simp [levelWidth]) (levelWidth_pos c) c hc
    (level_growth c hc) n (k + 1) (by omega)
  rw [hT'] at this
  refine le_trans (mul_le_mul_of_nonneg_right ?_ ?_) this
  · have hpos : (0 : K) < 2 * c + 1 := by positivity
    have e : 1 - (1 / (2 * (c : K) + 1)) = 2 * c / (2 * c + 1) := by
      rw [one_sub_div hpos.ne']; congr 1; ring
    have a : ((k + 1 : ℕ) : K) ≤ (hist ops).length := by exact_mod_cast hle
    have b : (2 * (c : K) + 1) * ((k + 1 : ℕ) : K) ^ 2 / (6 * c * (T : K) ^ 2)
        ≤ (2 * c + 1) * ((hist ops).length : K) ^ 2 / (6 * c * (T : K) ^ 2) := by gcongr
    linarith
  · have := (hR i s).G_mono (Nat.zero_le (k + 1))
    rw [(hR i s).zero] at this
    exact this

/-- **C129** (constant load).  For a constant nonnegative load the scheme lies between
`2 c / (2 c + 1)` times the exact response and the exact response. -/
theorem cj_constant_load [Fintype S] [Subsingleton S] (dt tmax : K) (hdt : 0 < dt) (c : ℕ)
    (hc : 1 ≤ c) (time : List K) (ht : TimeClaessonJaved dt tmax c time)
    (hn : time.length = n + 1) (R : S → S → K → K)
    (hR : ∀ i s, LevelsOff (stepResponse (R i s) dt)) (q : K) (hq : 0 ≤ q)
    (ops : List (Op K S)) (hp : Proper ops) (m : ℕ) (hist_const : hist ops = List.replicate (m + 1) fun _ => q)
    (T : ℕ) (hT : time[n]'(by omega) = T * dt)
    (h1 : (2 * c + 1) ^ 2 * (m + 1) ^ 2 ≤ 6 * c * T ^ 2)
    (h2 : (2 * c + 1) * (m + 1) ≤ 2 * c * T) (i : S) :
    2 * c / (2 * c + 1) * (q * R i i ((m + 1 : ℕ) * dt))
        ≤ temporalSuperposition
          (increments fun i s (k : Fin (n + 1)) => R i s (time[k.val]'(by omega)))
          (run (widths dt fun k : Fin (n + 1) => time[k.val]'(by omega)) ops) i ∧
      temporalSuperposition
          (increments fun i s (k : Fin (n + 1)) => R i s (time[k.val]'(by omega)))
          (run (widths dt fun k : Fin (n + 1) => time[k.val]'(by omega)) ops) i
        ≤ q * R i i ((m + 1 : ℕ) * dt) := by
  have sup : ∀ G : ℕ → K, superpose G (List.replicate (m + 1) q) = q * G m := by
    intro G
    rw [superpose, List.length_replicate, sum_range_succ, sum_eq_zero]
    · simp [List.getD_eq_getElem?_getD]
    · intro k hk
      have hk' := mem_range.mp hk
      have a : k < m + 1 := by omega
      have b : k + 1 < m + 1 := by omega
      simp [List.getD_eq_getElem?_getD, a, hk']
  obtain ⟨hv, -⟩ := grid_widths dt tmax hdt c hc time ht hn
  have hT' : edge (levelWidth c) (n + 1) = T := by
    have := hv (Fin.last n)
    simp only [Fin.val_last] at this
    rw [hT] at this
    exact_mod_cast (mul_right_cancel₀ hdt.ne' this).symm
  have lo := held_ge (hR i i) (w := levelWidth c) (by simp [levelWidth]) (levelWidth_pos c) c hc
    (level_growth c hc) n (m + 1) (by rw [hT']; exact h1) (by rw [hT']; exact h2)
  have hi := held_le (hR i i) (w := levelWidth c) (by simp [levelWidth]) (levelWidth_pos c) n (m + 1)
  rw [result_grid dt tmax hdt c hc time ht hn R ops hp i,
    Fintype.sum_subsingleton _ i, hist_const, List.map_replicate, sup, ← stepResponse_succ (R i i) dt m]
  refine ⟨?_, mul_le_mul_of_nonneg_left hi hq⟩
  have hpos : (0 : K) < 2 * c + 1 := by positivity
  rw [div_mul_eq_mul_div, div_le_iff₀ hpos]
  nlinarith [mul_le_mul_of_nonneg_left lo hq]

/-- A response that levels off: `t / (t + 1)`. -/
def sample (t : ℚ) : ℚ := t / (t + 1)

theorem sample_levels : LevelsOff (stepResponse sample 1) := by
  suffices h : LevelsOff fun m : ℕ => sample (m * 1) by
    have e : stepResponse sample 1 = fun m : ℕ => sample (m * 1) := by
      funext m
      by_cases hm : m = 0
      · simp [stepResponse, hm, sample]
      · simp [stepResponse, hm]
    rwa [e]
  have e : ∀ m : ℕ, sample ((m : ℚ) * 1) = m / (m + 1) := fun m => by simp [sample]
  have d : ∀ m : ℕ, sample (((m + 1 : ℕ) : ℚ) * 1) - sample ((m : ℚ) * 1)
      = 1 / ((m + 1) * (m + 2)) := by
    intro m
    rw [e, e]
    have : (m : ℚ) + 1 ≠ 0 := by positivity
    have : (m : ℚ) + 2 ≠ 0 := by positivity
    have : (m : ℚ) + 1 + 1 ≠ 0 := by positivity
    push_cast
    field_simp
    ring
  refine ⟨by simp [sample], fun m => ?_, fun m => ?_, fun m => ?_⟩
  · have := d m
    have : (0 : ℚ) ≤ 1 / ((m + 1) * (m + 2)) := by positivity
    linarith
  · rw [d (m + 1), d m]
    push_cast
    gcongr <;> linarith
  · rw [d (m + 2), d (m + 1), d m]
    push_cast
    rw [div_sub_div _ _ (by positivity) (by positivity), div_sub_div _ _ (by positivity) (by positivity),
      div_le_div_iff₀ (by positivity) (by positivity)]
    have : (0 : ℚ) ≤ m := Nat.cast_nonneg m
    ring_nf
    nlinarith [pow_nonneg this 2, pow_nonneg this 3, pow_nonneg this 4, pow_nonneg this 5, pow_nonneg this 6]

/-- The grid for five time steps with one cell per level. -/
theorem sample_grid : TimeClaessonJaved (1 : ℚ) 5 1 [1, 3, 7] := by
  refine ⟨_, .step (by norm_num [cjCond, cjInit]) (.step (by norm_num [cjCond, cjBody, cjInit])
    (.step (by norm_num [cjCond, cjBody, cjInit]) (.done (by norm_num [cjCond, cjBody, cjInit])))), ?_⟩
  norm_num [cjBody, cjInit]

/-- Three time steps with the loads 2, 2 and 3. -/
def sampleOps : List (Op ℚ Unit) :=
  [.next, .set fun _ => 2, .next, .set fun _ => 2, .next, .set fun _ => 3]

/-- Three time steps with the load 2. -/
def sampleConst : List (Op ℚ Unit) :=
  [.next, .set fun _ => 2, .next, .set fun _ => 2, .next, .set fun _ => 2]

/-- Example: the loads 2, 2 and 3 on the grid with the times 1, 3 and 7. -/
example := cj_accuracy (n := 2) (1 : ℚ) 5 one_pos 1 le_rfl _ sample_grid rfl
  (fun _ _ : Unit => sample) (fun _ _ => sample_levels) sampleOps trivial 7 (by norm_num)
  (by simp [sampleOps, hist, histStep]) (by simp [sampleOps, hist, histStep]) ()

example := cj_accuracy_end (n := 2) (1 : ℚ) 5 one_pos 1 le_rfl _ sample_grid rfl
  (fun _ _ : Unit => sample) (fun _ _ => sample_levels) sampleOps trivial 7 (by norm_num)
  (by simp [sampleOps, hist, histStep]) ()

example := cj_below_exact (n := 2) (1 : ℚ) 5 one_pos 1 le_rfl _ sample_grid rfl
  (fun _ _ : Unit => sample) (fun _ _ => sample_levels) sampleOps trivial
  (by
    intro s k
    have : hist sampleOps = [fun _ => 3, fun _ => 2, fun _ => 2] := rfl
    rw [this]
    match k with
    | 0 => norm_num
    | 1 => norm_num
    | 2 => norm_num
    | k + 3 => simp) ()

example := cj_constant_load (n := 2) (1 : ℚ) 5 one_pos 1 le_rfl _ sample_grid rfl
  (fun _ _ : Unit => sample) (fun _ _ => sample_levels) 2 (by norm_num) sampleConst trivial 2 rfl 7
  (by norm_num) (by norm_num) (by norm_num) ()

end Verif.LoadAgg.CJ
