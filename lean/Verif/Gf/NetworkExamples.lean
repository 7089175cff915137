import Verif.Gf.MeanFailProps

/-!
# Concrete cases for the theorems on networks (C106, C107, C108)

Four boreholes in a row with single U-tubes, divided in two unequal segments each: the first feeds the second, the third feeds the fourth.
-/

noncomputable section

namespace Verif.Gf

open Bore Sol Net FLS

/-- The topology. -/
def pairs : Topology := ⟨4, [-1, 0, -1, 2], 2, 2, [0, 2], [1, 3], [0, 0, 1, 1]⟩

/-- The flow rates. -/
def pairFlow : Formatted := ⟨[2, 3], false, 4⟩

/-- Fractions of the segments. -/
def quarters : List (List ℝ) := [[1 / 4, 3 / 4], [1 / 4, 3 / 4], [1 / 4, 3 / 4], [1 / 4, 3 / 4]]

theorem pairs_ok : construct fieldRow.length (some [-1, 0, -1, 2]) = .ok pairs := rfl

theorem pairFlow_ok : format pairs [2, 3] [4] = .ok pairFlow := by
  norm_num [Net.format, formatFlow, formatCp, pairs, pairFlow]

theorem pairs_flow (i : Fin fieldRow.length) : mBore pairs pairFlow i ≠ 0 := by
  have h0 : mBore pairs pairFlow 0 = 2 := rfl
  have h1 : mBore pairs pairFlow 1 = 2 := rfl
  have h2 : mBore pairs pairFlow 2 = 3 := rfl
  have h3 : mBore pairs pairFlow 3 = 3 := rfl
  have : (i : ℕ) < 4 := i.isLt
  interval_cases h : (i : ℕ) <;> simp only [h0, h1, h2, h3] <;> norm_num

theorem quarters_splits : Splits fieldRow [2, 2, 2, 2] quarters := by
  refine ⟨⟨?_, ?_⟩, ?_, ?_⟩ <;> norm_num [fieldRow, quarters]

theorem quarters_mem (i : Fin fieldRow.length) : quarters.getD i [] ∈ quarters := by
  have hi : (i : ℕ) < quarters.length := i.isLt
  rw [List.getD_eq_getElem _ _ hi]; exact List.getElem_mem _

theorem row_H (i : Fin fieldRow.length) : 0 < fieldRow[i].H := fieldRow_upright.H _ (List.getElem_mem _)

theorem pairs_weighted (i : Fin fieldRow.length) : (rowPipe i (quarters.getD i [])).Weighted (mBore pairs pairFlow i) 4 ∧
    (rowPipe i (quarters.getD i [])).outA (mBore pairs pairFlow i) 4 = (rowPipe i [1]).outA (mBore pairs pairFlow i) 4 :=
  piped_weighted (cp := 4) (pairs_flow i) (by norm_num) (row_H i) (Or.inl (rowPipe_tube i)) (quarters_splits.pos _ (quarters_mem i)) (quarters_splits.sum _ (quarters_mem i))

theorem pairs_thermal (i : Fin fieldRow.length) : (rowPipe i (quarters.getD i [])).Thermal (mBore pairs pairFlow i) 4 :=
  piped_thermal (pairs_flow i) (by norm_num) (row_H i) (Or.inl (rowPipe_tube i).tube) (quarters_splits.pos _ (quarters_mem i)) (quarters_splits.sum _ (quarters_mem i))

theorem pairs_thermal_one (i : Fin fieldRow.length) : (rowPipe i [1]).Thermal (mBore pairs pairFlow i) 4 :=
  piped_thermal (pairs_flow i) (by norm_num) (row_H i) (Or.inl (rowPipe_tube i).tube) (by simp) (by simp)

/-- C106: `network_downhill`, `network_passive`. -/
example : ∃ ki ko : Coef (Fin fieldRow.length) _, netInlet pairs (fun i => rowPipe i (quarters.getD i [])) pairFlow = some ki ∧ netOutlet pairs (fun i => rowPipe i (quarters.getD i [])) pairFlow = some ko ∧
    (∀ Tin Tb, pairFlow.cp / 2 * (∑ i : Fin fieldRow.length, (if (i : ℕ) ∈ flowOutlets pairs pairFlow then |mBore pairs pairFlow i| * ko.eval Tin Tb i ^ 2 else 0)
      - Tin ^ 2 * ∑ i : Fin fieldRow.length, (if (i : ℕ) ∈ flowInlets pairs pairFlow then |mBore pairs pairFlow i| else 0))
        ≤ ∑ s, Tb s * (boreHeat pairs (fun i => rowPipe i (quarters.getD i [])) pairFlow ki).eval Tin Tb s) ∧
    ∃ s, (boreHeat pairs (fun i => rowPipe i (quarters.getD i [])) pairFlow ki).aIn s ≠ 0 := by
  obtain ⟨ki, ko, hki, hko, -⟩ := network_temperatures pairs_ok (fun i => rowPipe i (quarters.getD i [])) pairFlow
  exact ⟨ki, ko, hki, hko, fun Tin Tb => network_downhill pairs_ok _ pairFlow pairs_thermal hki hko Tin Tb, (network_passive pairs_ok _ pairFlow pairs_thermal (by norm_num [pairFlow]) pairs_flow hki).2.2⟩

/-- C107: `network_monotone`, a warmer inlet. -/
example : ∃ ki ko : Coef (Fin fieldRow.length) _, netInlet pairs (fun i => rowPipe i (quarters.getD i [])) pairFlow = some ki ∧ netOutlet pairs (fun i => rowPipe i (quarters.getD i [])) pairFlow = some ko ∧
    ∀ i, ki.eval 5 (fun _ => 10) i ≤ ki.eval 6 (fun _ => 10) i ∧ ko.eval 5 (fun _ => 10) i ≤ ko.eval 6 (fun _ => 10) i := by
  obtain ⟨ki, ko, hki, hko, -⟩ := network_temperatures pairs_ok (fun i => rowPipe i (quarters.getD i [])) pairFlow
  exact ⟨ki, ko, hki, hko, network_monotone pairs_ok _ pairFlow (fun i => (pairs_weighted i).1) hki hko (by norm_num) (le_refl _)⟩

/-- C108: `network_mean`, `conductance_pos`, `conductance_segments`. -/
example : ∃ ki k1 : Coef (Fin fieldRow.length) _, netInlet pairs (fun i => rowPipe i (quarters.getD i [])) pairFlow = some ki ∧
    0 < conductance pairs (fun i => rowPipe i (quarters.getD i [])) pairFlow ki ∧
    conductance pairs (fun i => rowPipe i (quarters.getD i [])) pairFlow ki = conductance pairs (fun i => rowPipe i [1]) pairFlow k1 ∧
    ∃ w : SegIdx (fun i : Fin fieldRow.length => (quarters.getD i []).length) → ℝ, (∀ s, 0 ≤ w s) ∧ ∑ s, w s = 1 ∧ ∀ Tin Tb, totalHeat pairs (fun i => rowPipe i (quarters.getD i [])) pairFlow ki Tin Tb
      = conductance pairs (fun i => rowPipe i (quarters.getD i [])) pairFlow ki * (∑ s, w s * Tb s - Tin) := by
  obtain ⟨ki, -, hki, -⟩ := network_temperatures pairs_ok (fun i => rowPipe i (quarters.getD i [])) pairFlow
  obtain ⟨k1, -, hk1, -⟩ := network_temperatures pairs_ok (fun i => rowPipe i [1]) pairFlow
  exact ⟨ki, k1, hki, conductance_pos pairs_ok _ pairFlow pairs_thermal (fun i => (pairs_weighted i).1) (by norm_num [pairFlow]) pairs_flow hki,
    conductance_segments pairs_ok _ pairFlow pairs_thermal _ pairs_thermal_one (fun i => (pairs_weighted i).2) hki hk1,
    network_mean pairs_ok _ pairFlow pairs_thermal (fun i => (pairs_weighted i).1) rfl (by norm_num [pairFlow]) pairs_flow hki⟩

/-- C106: `mixed_network_returns`; C108: `mixed_network_mean_partial`, `mixed_network_range_partial`. -/
example : ∃ g Qs Ts, mixedNetwork lineKernel fieldRow [2, 2, 2, 2] quarters (some [-1, 0, -1, 2]) rowPipe 2 [2, 3] 4 [10 ^ 3, 10 ^ 6, 10 ^ 9] (10 ^ 4) = some (g, Qs, Ts) ∧
    ∃ w : Fin (segmentList fieldRow [2, 2, 2, 2] quarters).length → ℝ, (∀ i, 0 ≤ w i) ∧ ∑ i, w i = 1 ∧
      (∀ k < 3, ∃ (v : ℝ) (T : Fin (segmentList fieldRow [2, 2, 2, 2] quarters).length → ℝ), g[k]? = some v ∧ (∀ i, (Ts i)[k]? = some (T i)) ∧ v = ∑ i, w i * T i) ∧
      ∃ v i j lo hi, g[2]? = some v ∧ (Ts i)[2]? = some lo ∧ (Ts j)[2]? = some hi ∧ lo ≤ v ∧ v ≤ hi := by
  have ha : Aligned pairs pairFlow := by
    intro k o ho
    have hk : k < 2 := by
      have := (List.getElem?_eq_some_iff.mp ho).1
      simpa [flowOutlets, pairs, pairFlow] using this
    interval_cases k
    · obtain rfl : 1 = o := by simpa [flowOutlets, pairs, pairFlow] using ho
      rfl
    · obtain rfl : 3 = o := by simpa [flowOutlets, pairs, pairFlow] using ho
      rfl
  obtain ⟨⟨g, Qs, Ts⟩, hr⟩ := mixed_network_returns (alpha := 1 / 10 ^ 6) (K := lineKernel) (time := [10 ^ 3, 10 ^ 6, 10 ^ 9]) (thr := 10 ^ 4) (ks := 2) (by norm_num) (fun _ _ _ => rfl)
    fieldRow_upright quarters_splits fieldRow_spaced (by simp) (by simp; norm_num) (by norm_num) pairs_ok (by norm_num) (cp := 4) (by norm_num) pairFlow_ok pairs_flow pairs_thermal
  obtain ⟨w, w0, w1, -, hall⟩ := mixed_network_mean_partial fieldRow_upright quarters_splits pairs_ok (by norm_num) (by norm_num) pairFlow_ok pairs_flow pairs_thermal
    (fun i => (pairs_weighted i).1) pairs_thermal_one (fun i => (pairs_weighted i).2) ha hr
  exact ⟨g, Qs, Ts, hr, w, w0, w1, hall, mixed_network_range_partial fieldRow_upright quarters_splits pairs_ok (by norm_num) (by norm_num) pairFlow_ok pairs_flow pairs_thermal
    (fun i => (pairs_weighted i).1) pairs_thermal_one (fun i => (pairs_weighted i).2) ha hr (by norm_num)⟩

end Verif.Gf
