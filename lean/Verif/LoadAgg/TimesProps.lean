import Mathlib.Algebra.Order.Floor.Defs
import Mathlib.Algebra.Order.Floor.Ring
import Mathlib.Data.Rat.Floor
import Verif.LoadAgg.CJProps
import Verif.LoadAgg.LiuProps
import Verif.LoadAgg.MLAAProps
import Verif.LoadAgg.TimesModel

/-!
# Property C97: a simulation with a load aggregation scheme

The required times are the multiples of the time step up to the maximum time, rounded up.  Giving
the response factors at these times, a simulation of any length up to the maximum time runs
without error, and its result is a superposition with the response at `(k+1) dt`.
-/

namespace Verif.LoadAgg

open Finset

variable {K : Type*} [Field K] [LinearOrder K] [IsStrictOrderedRing K] [FloorSemiring K]

/-- **C97** (times).  The times required by MLAA and Liu are the multiples of `dt`; the last one
reaches `tmax` and is the first multiple that does. -/
theorem times_for_simulation (dt tmax : K) (hdt : 0 < dt) (ht : 0 < tmax) :
    ∃ N, 0 < N ∧ timesForSimulation dt tmax = (List.range N).map (fun i : ℕ => ((i : K) + 1) * dt) ∧
      tmax ≤ N * dt ∧ N * dt < tmax + dt := by
  refine ⟨numSteps dt tmax, Nat.ceil_pos.mpr (div_pos ht hdt), rfl, ?_, ?_⟩
  · have := Nat.le_ceil (tmax / dt)
    rwa [div_le_iff₀ hdt] at this
  · have := Nat.ceil_lt_add_one (div_pos ht hdt).le
    calc ((numSteps dt tmax : ℕ) : K) * dt < (tmax / dt + 1) * dt :=
          mul_lt_mul_of_pos_right this hdt
      _ = tmax + dt := by rw [add_mul, one_mul, div_mul_cancel₀ _ hdt.ne']

omit [LinearOrder K] [IsStrictOrderedRing K] [FloorSemiring K] in
theorem superpose_congr (G G' : ℕ → K) (h : List K) (hG : ∀ k < h.length, G k = G' k) :
    superpose G h = superpose G' h :=
  Finset.sum_congr rfl fun k hk => by rw [hG k (Finset.mem_range.mp hk)]

omit [IsStrictOrderedRing K] in
theorem responseArray_lt {S : Type*} (g : S → S → K → K) (dt tmax : K) (i j : S) (k : ℕ)
    (hk : k < numSteps dt tmax) :
    responseArray g (timesForSimulation dt tmax) i j k = g i j (((k : K) + 1) * dt) := by
  simp [responseArray, timesForSimulation, List.getD_eq_getElem?_getD, hk]

theorem steps_le (dt tmax : K) (hdt : 0 < dt) (n : ℕ) (hn : n * dt ≤ tmax) :
    n ≤ numSteps dt tmax := by
  have h : (n : K) ≤ tmax / dt := (le_div_iff₀ hdt).mpr hn
  exact_mod_cast h.trans (Nat.le_ceil _)

/-- The number of large cells allocated by `Liu` is the one assumed by the invariants. -/
theorem liuOf_ok (dt tmax : K) (N1 N2 N3 W1 W2 W3 : ℕ) (h : 0 < N1 * N2 * N3) :
    (liuOf dt tmax N1 N2 N3 W1 W2 W3).N4Ok (numSteps dt tmax) := by
  show ⌈((numSteps dt tmax : ℕ) : K) / ((N1 * N2 * N3 : ℕ) : K)⌉₊ = _
  generalize numSteps dt tmax = n
  show _ = (n + (N1 * N2 * N3 - 1)) / (N1 * N2 * N3)
  generalize N1 * N2 * N3 = B at h ⊢
  have hB : (0 : K) < (B : K) := by exact_mod_cast h
  refine le_antisymm (Nat.ceil_le.mpr ?_) ?_
  · rw [div_le_iff₀ hB]
    have : n ≤ (n + (B - 1)) / B * B := by
      have := Nat.div_add_mod (n + (B - 1)) B
      have h2 := Nat.mod_lt (n + (B - 1)) h
      rw [Nat.mul_comm] at this
      omega
    exact_mod_cast this
  · rw [← Nat.lt_add_one_iff, Nat.div_lt_iff_lt_mul h]
    have := Nat.le_ceil ((n : K) / (B : K))
    rw [div_le_iff₀ hB] at this
    have h3 : n ≤ ⌈(n : K) / (B : K)⌉₊ * B := by exact_mod_cast this
    rw [Nat.add_mul, Nat.one_mul]
    omega

/-- **C97** (MLAA).  A simulation of `n` time steps with `n dt ≤ tmax` runs without error, and
gives the superposition of the aggregated history with the response factors at the times
`(k+1) dt`: only response factors at the required times are used. -/
theorem mlaa_simulation {S : Type*} [Fintype S] (dt tmax : K) (hdt : 0 < dt) (N0 N1 N2 N3 : ℕ)
    (h0 : 1 ≤ N0) (h1 : 1 ≤ N1) (h2 : 1 ≤ N2) (h3 : 1 ≤ N3) (g : S → S → K → K)
    (ops : List (Op K S)) (hp : Proper ops) (hne : ops ≠ [])
    (hn : ((hist ops).length : K) * dt ≤ tmax) :
    ∃ σ, MLAA.run (mlaaOf dt tmax N0 N1 N2 N3) ops = some σ ∧
      MLAA.temporalSuperposition (mlaaOf dt tmax N0 N1 N2 N3)
          (responseArray g (timesForSimulation dt tmax)) σ
        = some fun i => ∑ j, superpose (fun k => g i j (((k : K) + 1) * dt))
            (averaged (MLAA.blockSizes (mlaaOf dt tmax N0 N1 N2 N3) (hist ops).length)
              ((hist ops).map fun l => l j)) := by
  have hle := steps_le dt tmax hdt _ hn
  obtain ⟨σ, hr⟩ := Option.isSome_iff_exists.mp
    ((MLAA.mlaa_run_isSome_iff (mlaaOf dt tmax N0 N1 N2 N3) h0 ops hp).mpr hle)
  refine ⟨σ, hr, ?_⟩
  rw [MLAA.mlaa_response (mlaaOf dt tmax N0 N1 N2 N3) h0 h1 h2 h3 _ ops hp hne σ hr]
  congr 1
  funext i
  refine Finset.sum_congr rfl fun j _ => superpose_congr _ _ _ fun k hk => ?_
  rw [averaged_length _ _ (by rw [MLAA.blockSizes_sum]; simp), List.length_map] at hk
  exact responseArray_lt g dt tmax i j k (by omega)

omit [IsStrictOrderedRing K] in
/-- **C97** (MLAA, the limit).  One time step more than required for `tmax` is refused. -/
theorem mlaa_simulation_end {S : Type*} (dt tmax : K) (N0 N1 N2 N3 : ℕ) (h0 : 1 ≤ N0)
    (ops : List (Op K S)) (hp : Proper ops)
    (hn : (timesForSimulation dt tmax).length < (hist ops).length) :
    MLAA.run (mlaaOf dt tmax N0 N1 N2 N3) ops = none := by
  rw [← Option.not_isSome_iff_eq_none, MLAA.mlaa_run_isSome_iff _ h0 ops hp]
  have hn' : numSteps dt tmax < (hist ops).length := by simpa [timesForSimulation] using hn
  exact not_le.mpr hn'

/-- **C97** (Liu).  The same for the Liu scheme. -/
theorem liu_simulation {S : Type*} [Fintype S] (dt tmax : K) (hdt : 0 < dt)
    (N1 N2 N3 W1 W2 W3 : ℕ) (hN : 1 ≤ N1 ∧ 1 ≤ N2 ∧ 1 ≤ N3) (hW : 1 ≤ W1 ∧ 1 ≤ W2 ∧ 1 ≤ W3)
    (g : S → S → K → K) (ops : List (Op K S)) (hp : Proper ops) (hne : ops ≠ [])
    (hn : ((hist ops).length : K) * dt ≤ tmax) :
    ∃ σ, Liu.run (liuOf dt tmax N1 N2 N3 W1 W2 W3) ops = some σ ∧
      ∀ i, Liu.temporalSuperposition (liuOf dt tmax N1 N2 N3 W1 W2 W3)
          (timesForSimulation dt tmax).length (responseArray g (timesForSimulation dt tmax)) σ i
        = ∑ j, superpose (fun k => g i j (((k : K) + 1) * dt))
            (averaged (Liu.sizes (liuOf dt tmax N1 N2 N3 W1 W2 W3) σ)
              ((hist ops).map fun l => l j)) := by
  have hle := steps_le dt tmax hdt _ hn
  have hg : Liu.Good (liuOf dt tmax N1 N2 N3 W1 W2 W3) :=
    ⟨hN.1, hN.2.1, hN.2.2, hW.1, hW.2.1, hW.2.2⟩
  have h4 := liuOf_ok dt tmax N1 N2 N3 W1 W2 W3 (Nat.mul_pos (Nat.mul_pos hN.1 hN.2.1) hN.2.2)
  obtain ⟨σ, hr, h⟩ := Liu.liu_response _ _ (timesForSimulation dt tmax).length hg h4
    (responseArray g (timesForSimulation dt tmax)) ops hp hne hle
  obtain ⟨σ', hr', hs, -⟩ := Liu.liu_partition _ _ hg h4 ops hp hle
  obtain rfl : σ = σ' := by rw [hr] at hr'; exact Option.some.inj hr'
  refine ⟨σ, hr, fun i => ?_⟩
  rw [h i]
  refine Finset.sum_congr rfl fun j _ => superpose_congr _ _ _ fun k hk => ?_
  rw [averaged_length _ _ (by rw [hs]; simp), List.length_map] at hk
  exact responseArray_lt g dt tmax i j k (by omega)

namespace CJ

variable {S : Type*} {n : ℕ}

omit [LinearOrder K] [IsStrictOrderedRing K] [FloorSemiring K] in
/-- **C97** (response factor increments).  The increments of the Claesson-Javed scheme add up to
the response factors they were made of. -/
theorem increments_sum (g : S → S → Fin (n + 1) → K) (i j : S) (k : Fin (n + 1)) :
    ∑ l ∈ Finset.Iic k, increments g i j l = g i j k := by
  induction k using Fin.induction with
  | zero =>
    have : Finset.Iic (0 : Fin (n + 1)) = {0} := by ext x; simp
    simp [this, increments]
  | succ k ih =>
    have hk : Finset.Iic k.succ = insert k.succ (Finset.Iic k.castSucc) := by
      ext x
      simp only [Finset.mem_Iic, Finset.mem_insert, Fin.le_def, Fin.ext_iff, Fin.val_succ,
        Fin.val_castSucc]
      omega
    rw [hk, Finset.sum_insert (by simp [Fin.le_def]), ih]
    simp [increments]

omit [LinearOrder K] [IsStrictOrderedRing K] [FloorSemiring K] in
/-- **C97** (Claesson-Javed, response proportional to time).  As long as there are no more time
steps than cells, a response proportional to time gives exactly the total heat, although the
loads are spread over cells of growing width. -/
theorem cj_exact_proportional [Fintype S] (dt : K) (hdt : dt ≠ 0) (time : Fin (n + 1) → K)
    (h0 : time 0 = dt) (hne : ∀ k, widths dt time k ≠ 0) (a : S → S → K) (ops : List (Op K S))
    (hp : Proper ops) (hlen : (hist ops).length ≤ n + 1) (i : S) :
    temporalSuperposition (increments fun i j k => a i j * time k) (run (widths dt time) ops) i
      = ∑ j, a i j * dt * ((hist ops).map fun l => l j).sum := by
  refine Finset.sum_congr rfl fun j _ => ?_
  rw [← cj_energy_conserved (widths dt time) (by simp [widths]) hne ops hp j hlen, Finset.mul_sum]
  refine Finset.sum_congr rfl fun k _ => ?_
  generalize run (widths dt time) ops j k = q
  unfold increments widths
  dsimp only
  split_ifs with h
  · rw [h0]; ring
  · field_simp

omit [FloorSemiring K] in
/-- **C97** (Claesson-Javed, range).  If the response factors are nonnegative and do not decrease
and the loads of every source lie in `[0, Q]`, the temperature drop lies between zero and the
steady drop of the full loads at the last required time, at every time step (also beyond
`tmax`). -/
theorem cj_temperature_bounded [Fintype S] (w : Fin (n + 1) → K) (hw : ∀ k, 1 ≤ w k)
    (g : S → S → Fin (n + 1) → K) (hg0 : ∀ i j, 0 ≤ g i j 0)
    (hg : ∀ i j k k', k ≤ k' → g i j k ≤ g i j k') (Q : S → K) (hQ : ∀ j, 0 ≤ Q j)
    (ops : List (Op K S)) (hops : ∀ l, Op.set l ∈ ops → ∀ j, 0 ≤ l j ∧ l j ≤ Q j) (i : S) :
    0 ≤ temporalSuperposition (increments g) (run w ops) i ∧
    temporalSuperposition (increments g) (run w ops) i ≤ ∑ j, Q j * g i j (Fin.last n) := by
  have hinc : ∀ j k, 0 ≤ increments g i j k := by
    intro j k
    unfold increments
    split_ifs with h
    · exact hg0 i j
    · have := hg i j (k.pred h).castSucc k (by
        rw [Fin.le_def, Fin.val_castSucc, Fin.val_pred]; omega)
      linarith
  have hc := fun j k => cj_cells_bounded w hw 0 (Q j) le_rfl (hQ j) ops j
    (fun l hl => hops l hl j) k
  constructor
  · exact Finset.sum_nonneg fun j _ => Finset.sum_nonneg fun k _ => mul_nonneg (hinc j k) (hc j k).1
  · refine Finset.sum_le_sum fun j _ => ?_
    have hs := increments_sum g i j (Fin.last n)
    have hI : Finset.Iic (Fin.last n) = Finset.univ := by ext x; simp [Fin.le_last]
    rw [hI] at hs
    rw [← hs, Finset.mul_sum]
    refine Finset.sum_le_sum fun k _ => ?_
    rw [mul_comm]
    exact mul_le_mul_of_nonneg_right (hc j k).2 (hinc j k)

end CJ

/-- Example: a time step of two hours, five hours to simulate: three times. -/
example : timesForSimulation (2 : ℚ) 5 = [2, 4, 6] := by
  have : numSteps (2 : ℚ) 5 = 3 := by
    rw [numSteps, Nat.ceil_eq_iff (by norm_num)]; norm_num
  simp [timesForSimulation, this, List.range_succ]; norm_num

/-- Example: the hypotheses of the simulation theorems hold for two time steps of two hours. -/
example : Proper [.next, .set fun _ : Unit => 3, .next, .set fun _ => (5 : ℚ)] ∧
    ((hist [.next, .set fun _ : Unit => (3 : ℚ), .next, .set fun _ => 5]).length : ℚ) * 2 ≤ 5 := by
  refine ⟨trivial, ?_⟩
  simp [hist, histStep]; norm_num

/-- Example: cells of widths 1, 2 with times 1, 3 satisfy the hypotheses for Claesson-Javed. -/
example : CJ.widths (1 : ℚ) ![1, 3] = ![1, 2] := by
  funext k
  fin_cases k
  · simp [CJ.widths]
  · simp [CJ.widths]; norm_num

end Verif.LoadAgg
