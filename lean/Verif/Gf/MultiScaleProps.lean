import Verif.Gf.ScaleNetProps
import Verif.Gf.TubeNetProps
import Verif.Pipe.MultiScaleProps

/-!
# g-functions of networks with several U-tubes only depend on dimensionless numbers
-/

noncomputable section

namespace Verif.Gf

open Bore FLS Sol Net

variable {c κ : ℝ} {n : ℕ}

/-- **C126** (networks of boreholes with several U-tubes).  The hypothesis on the pipes of `network_scale` holds for any number of U-tubes, in parallel or in series. -/
theorem multiple_net_scaled (hc : 0 < c) (hκ : 0 < κ) {E : Matrix (Pipe.Multi.P n) (Pipe.Multi.P n) ℝ → Pipe.Multi.Eig n} (hE : Pipe.Multi.Decomposes E) (cfg : Pipe.Multi.Config)
    (reversible : Bool) {Rd : Matrix (Pipe.Multi.P n) (Pipe.Multi.P n) ℝ} (hR : Pipe.Multi.Circuit Rd) (b : Borehole) (r : List ℝ) :
    (Pipe.Multi.netPipe E cfg reversible Rd (edgesAt b r) b.H r.length).Scaled (κ * c)
      (Pipe.Multi.netPipe E cfg reversible (κ⁻¹ • Rd) (edgesAt (scaleBore c b) r) (scaleBore c b).H r.length) := by
  rw [edgesAt_scale]
  exact Pipe.Multi.netPipe_scaled hE hR hc hκ _ _ _

/-- The pipes of the theorem are several U-tubes in the borehole. -/
theorem netPipe_multipleIn {E : Matrix (Pipe.Multi.P n) (Pipe.Multi.P n) ℝ → Pipe.Multi.Eig n} (hE : Pipe.Multi.Decomposes E) (cfg : Pipe.Multi.Config) {reversible : Bool}
    {Rd : Matrix (Pipe.Multi.P n) (Pipe.Multi.P n) ℝ} (hR : Pipe.Multi.Circuit Rd) {b : Borehole} (hH : 0 < b.H) {m cp : ℝ} (hf : Pipe.Multi.Flowing n reversible m cp) :
    MultipleIn b (fun r => Pipe.Multi.netPipe E cfg reversible Rd (edgesAt b r) b.H r.length) m cp :=
  ⟨n, cfg, reversible, Rd, _, hR, hf, hE _ (Pipe.Multi.eig_exists hR _), fun _ => Pipe.Multi.netPipe_represents hE hR hf _ hH _⟩

/-! ### A concrete case -/

/-- Four boreholes in two circuits, with three U-tubes in series in each: twice as large, with three times the conductivities, the same g-function with six times the flow rates. -/
example : ∃ (E : Matrix (Pipe.Multi.P 3) (Pipe.Multi.P 3) ℝ → Pipe.Multi.Eig 3) (g : List ℝ) (Qs Ts Qs' Ts' : _),
    mixedNetwork lineKernel fieldRow [2, 2, 2, 2] quarters (some [-1, 0, -1, 2])
      (fun i r => Pipe.Multi.netPipe E .series true (Pipe.Multi.sampleRd 3) (edgesAt fieldRow[i] r) fieldRow[i].H r.length) 2 [2, 3] 4 [10 ^ 3, 10 ^ 6, 10 ^ 9] (10 ^ 4) = some (g, Qs, Ts) ∧
    mixedNetwork (fun t _ s r => fls t (2 / 10 ^ 6) (pairOf s r) true true) (fieldRow.map (scaleBore 2)) [2, 2, 2, 2] quarters (some [-1, 0, -1, 2])
      (fun i r => Pipe.Multi.netPipe E .series true ((3 : ℝ)⁻¹ • Pipe.Multi.sampleRd 3) (edgesAt (scaleBore 2 fieldRow[i.cast (List.length_map _)]) r)
        (scaleBore 2 fieldRow[i.cast (List.length_map _)]).H r.length) 6 [12, 18] 4 [2 * 10 ^ 3, 2 * 10 ^ 6, 2 * 10 ^ 9] (2 * 10 ^ 4) = some (g, Qs', Ts') := by
  obtain ⟨E, hE⟩ := Pipe.Multi.decomposes_exists 3
  have hR := Pipe.Multi.sample_circuit 3
  obtain ⟨⟨g, Qs, Ts⟩, hr⟩ := tube_network_returns (alpha := 1 / 10 ^ 6) (K := lineKernel) (time := [10 ^ 3, 10 ^ 6, 10 ^ 9]) (thr := 10 ^ 4) (ks := 2) (by norm_num) (fun _ _ _ => rfl)
    fieldRow_upright quarters_splits fieldRow_spaced (by simp) (by simp; norm_num) (by norm_num) pairs_ok (by norm_num) (cp := 4) (by norm_num) pairFlow_ok pairs_flow
    (fun i => Or.inr (netPipe_multipleIn hE .series (reversible := true) hR (fieldRow_upright.H _ (List.getElem_mem _)) ⟨by norm_num, pairs_flow i, by norm_num, Or.inr rfl⟩))
  have h := network_scale (bs := fieldRow) (ns := [2, 2, 2, 2]) (rs := quarters) (κ := 3) two_pos two_pos (by norm_num) lineKernel_homogeneous (some [-1, 0, -1, 2])
    (pipe := fun i r => Pipe.Multi.netPipe E .series true (Pipe.Multi.sampleRd 3) (edgesAt fieldRow[i] r) fieldRow[i].H r.length)
    (fun i r => multiple_net_scaled two_pos (by norm_num) hE .series true hR fieldRow[i.cast (List.length_map _)] r) 2 [2, 3] 4 [10 ^ 3, 10 ^ 6, 10 ^ 9] (10 ^ 4)
  rw [show mixedNetwork lineKernel fieldRow [2, 2, 2, 2] quarters (some [-1, 0, -1, 2])
    (fun i r => Pipe.Multi.netPipe E .series true (Pipe.Multi.sampleRd 3) (edgesAt fieldRow[i] r) fieldRow[i].H r.length) 2 [2, 3] 4 [10 ^ 3, 10 ^ 6, 10 ^ 9] (10 ^ 4) = some (g, Qs, Ts) from hr] at h
  have e : ([2, 3] : List ℝ).map (3 * 2 * ·) = [12, 18] := by norm_num
  rw [e, show (3 : ℝ) * 2 = 6 by norm_num] at h
  exact ⟨E, g, Qs, Ts, _, _, hr, h⟩

end Verif.Gf
