import Verif.Gf.ScaleProps
import Verif.Gf.NetworkExamples

/-!
# g-functions of networks only depend on dimensionless numbers

The mixed inlet temperature with the pipes and connections of the network: lengths are multiplied by `c`, conductivities by `κ`, and flow rates by `κ c`.
-/

noncomputable section

namespace Verif.Gf

open Bore FLS Sol Net

variable {c κ lam : ℝ} {F F' : ℝ → Bool → Borehole → Borehole → ℝ} {bs : List Borehole} {ns : List ℕ} {rs : List (List ℝ)}

/-- **C126** (networks).  The g-function, the heat extraction rates and the wall temperatures of a network do not change when all lengths are multiplied by `c`, the conductivities of the
ground and of the boreholes by `κ`, the flow rates by `κ c`, and the times are those of the same dimensionless times; one solution exists when the other does. -/
theorem network_scale (hl : 0 < lam) (hc : 0 < c) (hκ : 0 < κ) (hK : Homogeneous c lam F F') (conn : Option (List ℤ)) {pipe : Fin bs.length → (r : List ℝ) → Net.Pipe r.length}
    {pipe' : Fin (bs.map (scaleBore c)).length → (r : List ℝ) → Net.Pipe r.length} (hp : ∀ i r, (pipe (i.cast (List.length_map _)) r).Scaled (κ * c) (pipe' i r)) (ks : ℝ) (m : List ℝ) (cp : ℝ)
    (time : List ℝ) (thr : ℝ) :
    mixedNetwork F' (bs.map (scaleBore c)) ns rs conn pipe' (κ * ks) (m.map (κ * c * ·)) cp (time.map (lam * ·)) (lam * thr) =
      (mixedNetwork F bs ns rs conn pipe ks m cp time thr).map fun o =>
        (o.1, o.2.1.map fun Q i => Q (i.cast (segment_count_scale c bs ns rs)), fun i => o.2.2 (i.cast (segment_count_scale c bs ns rs))) :=
  network_similar hl hc hκ (scaleBore_similar c bs ns rs) (hK.homologous _) conn hp ks m cp time thr

theorem edgesAt_scale (c : ℝ) (b : Borehole) (r : List ℝ) : edgesAt (scaleBore c b) r = fun j => c * edgesAt b r j := by
  funext j
  unfold edgesAt Borehole.edges
  rw [List.getD_eq_getElem?_getD, List.getD_eq_getElem?_getD, List.getElem?_map, List.getElem?_map]
  cases (0 :: cumsumFrom 0 r)[j]? with
  | none => simp
  | some a =>
    simp only [Option.map_some, Option.getD_some, scaleBore]
    ring

/-- **C126** (networks of single U-tubes).  The hypothesis on the pipes of `network_scale` holds for a single U-tube. -/
theorem tube_scaled (hc : 0 < c) (hκ : 0 < κ) (b : Borehole) (t : Pipe.UTube) (r : List ℝ) :
    (t.netPipe (edgesAt b r) r.length).Scaled (κ * c) ((t.scale c κ).netPipe (edgesAt (scaleBore c b) r) r.length) := by
  rw [edgesAt_scale]
  exact Pipe.UTube.netPipe_scaled hc hκ t _ _

/-- **C126** (default threshold).  The default threshold for linearization `max(r_b)² / (25 α)` is the same dimensionless time. -/
theorem threshold_scale (hc : 0 < c) {alpha alpha' : ℝ} (ha : 0 < alpha) (ha' : 0 < alpha') (rb : ℝ) : threshold none (c * rb) alpha' = c ^ 2 * alpha / alpha' * threshold none rb alpha := by
  unfold threshold
  field_simp

/-! ### Concrete cases -/

theorem lineKernel_homogeneous : Homogeneous 2 2 lineKernel fun t _ s r => fls t (2 / 10 ^ 6) (pairOf s r) true true := fun t _ s r =>
  vertical_scale (c := 2) two_pos (alpha := 1 / 10 ^ 6) (alpha' := 2 / 10 ^ 6) (by ring) s r true true

/-- A field twice as large in a ground of twice the diffusivity: the same g-functions at twice the times. -/
example : ∃ g Qs Qs', temperatureDetailed lineKernel fieldA [2, 1] [[1 / 4, 3 / 4], [1]] [10 ^ 3, 10 ^ 6, 10 ^ 9] (10 ^ 4) = some (g, Qs) ∧
    temperatureDetailed (fun t _ s r => fls t (2 / 10 ^ 6) (pairOf s r) true true) [⟨200, 8, 1 / 5, 0, 0, 0, 0⟩, ⟨300, 4, 1 / 5, 10, 0, 0, 0⟩] [2, 1] [[1 / 4, 3 / 4], [1]]
      [2 * 10 ^ 3, 2 * 10 ^ 6, 2 * 10 ^ 9] (2 * 10 ^ 4) = some (g, Qs') ∧ ∃ g', uniformDetailed lineKernel fieldA [2, 1] [[1 / 4, 3 / 4], [1]] [10 ^ 3, 10 ^ 6, 10 ^ 9] (10 ^ 4) = some g' ∧
    uniformDetailed (fun t _ s r => fls t (2 / 10 ^ 6) (pairOf s r) true true) [⟨200, 8, 1 / 5, 0, 0, 0, 0⟩, ⟨300, 4, 1 / 5, 10, 0, 0, 0⟩] [2, 1] [[1 / 4, 3 / 4], [1]]
      [2 * 10 ^ 3, 2 * 10 ^ 6, 2 * 10 ^ 9] (2 * 10 ^ 4) = some g' := by
  have hb : fieldA.map (scaleBore 2) = [⟨200, 8, 1 / 5, 0, 0, 0, 0⟩, ⟨300, 4, 1 / 5, 10, 0, 0, 0⟩] := by norm_num [fieldA, scaleBore]
  obtain ⟨⟨g, Qs⟩, ho⟩ := temperature_returns (alpha := 1 / 10 ^ 6) (K := lineKernel) (by norm_num) (fun _ _ _ => rfl) fieldA_upright fieldA_splits fieldA_spaced
    (time := [10 ^ 3, 10 ^ 6, 10 ^ 9]) (by simp) (by simp; norm_num) (thr := 10 ^ 4) (by norm_num)
  obtain ⟨-, -, -, g', hg', -⟩ := temperature_first (alpha := 1 / 10 ^ 6) (K := lineKernel) (by norm_num) (fun _ _ _ => rfl) fieldA_upright fieldA_splits fieldA_spaced
    (time := [10 ^ 3, 10 ^ 6, 10 ^ 9]) (by simp) (by simp; norm_num) (thr := 10 ^ 4) (by norm_num) ho
  have h1 := temperature_scale (bs := fieldA) (ns := [2, 1]) (rs := [[1 / 4, 3 / 4], [1]]) two_pos two_pos lineKernel_homogeneous [10 ^ 3, 10 ^ 6, 10 ^ 9] (10 ^ 4)
  have h2 := uniform_scale (bs := fieldA) (ns := [2, 1]) (rs := [[1 / 4, 3 / 4], [1]]) two_pos two_pos lineKernel_homogeneous [10 ^ 3, 10 ^ 6, 10 ^ 9] (10 ^ 4)
  rw [ho] at h1
  rw [hg'] at h2
  rw [← hb]
  exact ⟨g, Qs, _, ho, h1, g', hg', h2⟩

/-- Inclined boreholes, with approximate solutions: a field of half the size in a ground of the same diffusivity, at a quarter of the times. -/
example (nodes : List (ℝ × ℝ)) : uniformDetailed (lineSourceApprox 10 nodes (1 / 10 ^ 6)) ([⟨100, 4, 1 / 10, 0, 0, 1 / 5, 1⟩, ⟨100, 4, 1 / 10, 5, 0, 1 / 10, 3⟩].map (scaleBore (1 / 2))) [2, 2]
      [[1 / 2, 1 / 2], [1 / 2, 1 / 2]] ([10 ^ 6, 10 ^ 9].map (((1 / 2) ^ 2 * (1 / 10 ^ 6) / (1 / 10 ^ 6)) * ·)) (threshold none (1 / 2 * (1 / 10)) (1 / 10 ^ 6)) =
    uniformDetailed (lineSourceApprox 10 nodes (1 / 10 ^ 6)) [⟨100, 4, 1 / 10, 0, 0, 1 / 5, 1⟩, ⟨100, 4, 1 / 10, 5, 0, 1 / 10, 3⟩] [2, 2] [[1 / 2, 1 / 2], [1 / 2, 1 / 2]] [10 ^ 6, 10 ^ 9]
      (threshold none (1 / 10) (1 / 10 ^ 6)) := by
  rw [threshold_scale (by norm_num) (by norm_num : (0 : ℝ) < 1 / 10 ^ 6) (by norm_num)]
  exact uniform_scale (by norm_num) (by norm_num) (lineSourceApprox_homogeneous (by norm_num) (by norm_num) 10 nodes) _ _

/-- Four boreholes with single U-tubes in two circuits, twice as large, with three times the conductivities: the same g-function with six times the flow rates. -/
example : ∃ g Qs Ts Qs' Ts', mixedNetwork lineKernel fieldRow [2, 2, 2, 2] quarters (some [-1, 0, -1, 2]) rowPipe 2 [2, 3] 4 [10 ^ 3, 10 ^ 6, 10 ^ 9] (10 ^ 4) = some (g, Qs, Ts) ∧
    mixedNetwork (fun t _ s r => fls t (2 / 10 ^ 6) (pairOf s r) true true) (fieldRow.map (scaleBore 2)) [2, 2, 2, 2] quarters (some [-1, 0, -1, 2])
      (fun i r => ((Pipe.UTube.sample true).scale 2 3).netPipe (edgesAt (scaleBore 2 fieldRow[i.cast (List.length_map _)]) r) r.length) 6 [12, 18] 4 [2 * 10 ^ 3, 2 * 10 ^ 6, 2 * 10 ^ 9] (2 * 10 ^ 4)
        = some (g, Qs', Ts') := by
  obtain ⟨⟨g, Qs, Ts⟩, hr⟩ := mixed_network_returns (alpha := 1 / 10 ^ 6) (K := lineKernel) (time := [10 ^ 3, 10 ^ 6, 10 ^ 9]) (thr := 10 ^ 4) (ks := 2) (by norm_num) (fun _ _ _ => rfl)
    fieldRow_upright quarters_splits fieldRow_spaced (by simp) (by simp; norm_num) (by norm_num) pairs_ok (by norm_num) (cp := 4) (by norm_num) pairFlow_ok pairs_flow pairs_thermal
  have h := network_scale (bs := fieldRow) (ns := [2, 2, 2, 2]) (rs := quarters) (κ := 3) two_pos two_pos (by norm_num) lineKernel_homogeneous (some [-1, 0, -1, 2]) (pipe := rowPipe)
    (fun i r => tube_scaled two_pos (by norm_num) fieldRow[i.cast (List.length_map _)] (Pipe.UTube.sample true) r) 2 [2, 3] 4 [10 ^ 3, 10 ^ 6, 10 ^ 9] (10 ^ 4)
  rw [hr] at h
  have e : ([2, 3] : List ℝ).map (3 * 2 * ·) = [12, 18] := by norm_num
  rw [e, show (3 : ℝ) * 2 = 6 by norm_num] at h
  exact ⟨g, Qs, Ts, _, _, hr, h⟩

end Verif.Gf
