import Verif.Gf.RingProps
import Verif.Gf.SolversTemp
import Verif.Gf.NetworkExamples
import Verif.Sol.SimMixed
import Verif.Sol.EqUniform

/-!
# Concrete cases for the theorems on the `similarities` and `equivalent` solvers (C26, C27, C86, C103, C104, C105)
-/

noncomputable section

namespace Verif.Sol

open Bore

namespace Sim

/-- A group of the three boreholes in a row, and the similarity of its pairs. -/
example : ∃ m n t, (m, n) :: t ∈ row3.groups.pairV ∧ ∀ k l, (k, l) ∈ (m, n) :: t → |(row3.bore k).H - (row3.bore m).H| ≤ row3.tol * (row3.bore k).H := by
  have hN : 1 < row3.N := by norm_num [row3]
  have hp : ((0 : ℕ), (1 : ℕ)) ∈ row3.groups.pairV.flatten.map ord :=
    ((row3.groups_partition hN).1.2 (0, 1)).mpr ⟨by norm_num, by norm_num [row3], by simp [row3, vertical, tilted], by simp [row3, vertical, tilted]⟩
  obtain ⟨p, hp, -⟩ := List.mem_map.mp hp
  obtain ⟨g, hg, hpg⟩ := List.mem_flatten.mp hp
  obtain - | ⟨⟨m, n⟩, t⟩ := g
  · simp at hpg
  · refine ⟨m, n, t, hg, fun k l hkl => (row3.groups_similar hN (by norm_num [row3]) (fun k _ => ?_) (fun k _ => ?_) (fun k _ l _ => ?_) hg hkl).2.2.1⟩ <;> norm_num [row3]

/-- Two boreholes of different lengths: the whole array, and its entries. -/
example (t : ℝ) : ∃ dist M, mixed2.DistOk dist ∧ mixed2.factors (fun g => FLS.fls t (1 / 10 ^ 6) g true true) dist = some M ∧
    M 2 0 = FLS.fls t (1 / 10 ^ 6) (FLS.pairOf (mixed2.seg 0 0) (mixed2.seg 1 0)) true true := by
  obtain ⟨dist, hd⟩ := mixed2.dist_exists mixed2_separated.toDistinct.valid
  obtain ⟨M, h1, h2⟩ := mixed2.similarities_exact t (1 / 10 ^ 6) mixed2_separated.toDistinct.valid mixed2_separated.exact hd
  exact ⟨dist, M, hd, h1, h2 0 (by norm_num [mixed2]) 1 (by norm_num [mixed2]) 0 (by norm_num [mixed2]) 0 (by norm_num [mixed2])⟩

/-- Merged distances: the distance used is within the tolerance, and the response factors are close. -/
example (t : ℝ) (ht : 0 < t) : ∃ dist M, bent3.DistOk dist ∧ bent3.factors (fun g => FLS.fls t (1 / 10 ^ 6) g true true) dist = some M ∧
    (∃ d, M 12 0 = FLS.fls t (1 / 10 ^ 6) ⟨d, (bent3.seg 0 0).H, (bent3.seg 0 0).D, (bent3.seg 1 0).H, (bent3.seg 1 0).D⟩ true true ∧
      |d - (bent3.bore 0).distance (bent3.bore 1)| ≤ bent3.disTol * (bent3.bore 0).distance (bent3.bore 1)) ∧
    |M 12 0 - FLS.fls t (1 / 10 ^ 6) (FLS.pairOf (bent3.seg 0 0) (bent3.seg 1 0)) true true| ≤ Real.log (1 / (1 - bent3.disTol)) := by
  have hv := Identical.valid _ bent3_identical
  have hs := Identical.same _ bent3_identical
  obtain ⟨dist, hd⟩ := bent3.dist_exists hv
  obtain ⟨M, h1, h2⟩ := bent3.similarities_near t (1 / 10 ^ 6) hv hs hd
  obtain ⟨M', h1', h2'⟩ := bent3.similarities_error (t := t) (alpha := 1 / 10 ^ 6) (by norm_num) ht hv hs (fun k hk a ha => by
    rw [(bent3.seg_uniform (bent3_identical.rs_eq k hk) (bent3_identical.tilt_eq k hk) (by rw [← bent3_identical.ns_eq k hk]; exact ha)).2, bent3_identical.H_eq k hk, bent3_identical.D_eq k hk]
    positivity) (by norm_num [bent3]) hd
  obtain rfl := Option.some.inj (h1.symm.trans h1')
  obtain ⟨d, hM, -, hne⟩ := h2 0 (by norm_num [bent3]) 1 (by norm_num [bent3]) 0 (by norm_num [bent3]) 0 (by norm_num [bent3])
  exact ⟨dist, M, hd, h1, ⟨d, hM, (hne (by norm_num)).1⟩, (h2' 0 (by norm_num [bent3]) 1 (by norm_num [bent3]) 0 (by norm_num [bent3]) 0 (by norm_num [bent3])).1⟩

/-- Distances 5 m, 10 m and 5.02 m with the tolerance 1 %. -/
example : ∃ ds idx, FindDistances (1 / 100) [5, 10, 502 / 100] [0, 2, 1] (fun _ => 0) ds idx ∧ ∃ d : ℝ, ds[idx 2]? = some d ∧ |d - 502 / 100| ≤ 1 / 100 * (502 / 100) := by
  have hpos : ∀ x ∈ [(5 : ℝ), 10, 502 / 100], 0 < x := by norm_num
  have hperm : [0, 2, 1].Perm (List.range [(5 : ℝ), 10, 502 / 100].length) := by decide
  have hsort : ([0, 2, 1].map fun p : ℕ => [(5 : ℝ), 10, 502 / 100].getD p 0).Pairwise (· ≤ ·) := by norm_num
  obtain ⟨ds, idx, -, h, -⟩ := find_distances_groups (1 / 100) (by norm_num) [5, 10, 502 / 100] hpos [0, 2, 1] hperm hsort fun _ => 0
  obtain ⟨d, h1, h2, -⟩ := distance_close (by norm_num) hpos hperm hsort h (p := 2) rfl
  exact ⟨ds, idx, h, d, h1, h2⟩

end Sim

namespace EqIn

/-- Three boreholes in a row: the similarities of the `equivalent` solver are exact. -/
example (t : ℝ) : ∃ dis wDis es M, UniqueDistance eqRow3.disTol eqRow3.allDistances dis wDis ∧ eqRow3.equivalents = some es ∧
    (eqRow3.solver es dis 12 (uniformRatios 12)).factors (EqSol.flsE t (1 / 10 ^ 6)) (fun g => FLS.fls t (1 / 10 ^ 6) g true true) = some M := by
  obtain ⟨dis, wDis, -, hu, -⟩ := unique_distance_groups eqRow3.disTol (by norm_num [eqRow3]) eqRow3.allDistances (by
    intro x hx
    obtain ⟨k, hk, l, hl, rfl⟩ := (eqRow3.mem_allDistances eqRow3_uniform.toIdentical).mp hx
    exact lt_of_lt_of_le (by norm_num [eqRow3, Sim.row3]) (le_max_left _ _))
  obtain ⟨es, hes, -, -⟩ := eqRow3.uniform_equivalents twoClusters_ok eqRow3_uniform.toIdentical
  obtain ⟨M, h, -⟩ := (eqRow3.solver es dis 12 (uniformRatios 12)).equivalent_exact (eqRow3.uniform_exact twoClusters_ok eqRow3_uniform eqRow3_apart hu hes) t (1 / 10 ^ 6)
  exact ⟨dis, wDis, es, M, hu, hes, h⟩

end EqIn

end Verif.Sol

namespace Verif.Gf

open Bore FLS Sol EqIn

/-- The four boreholes on a circle, uniform temperature. -/
example : ∃ dis wDis es g Qs Qs', UniqueDistance ring4.disTol ring4.allDistances dis wDis ∧ ring4.equivalents = some es ∧
    temperatureDetailed (fun t _ s r => fls t (1 / 10 ^ 6) (pairOf s r) true true) (bores (ring4.field 12)) (counts (ring4.field 12)) (ratios (ring4.field 12)) [3600, 10 ^ 6, 10 ^ 9] 3600 = some (g, Qs) ∧
    temperatureEquivalent (fun t => EqSol.flsE t (1 / 10 ^ 6)) (fun t p => fls t (1 / 10 ^ 6) p true true) (ring4.solver es dis 12 (uniformRatios 12)) (12 * es.length) [3600, 10 ^ 6, 10 ^ 9] 3600 =
      some (g, Qs') := by
  obtain ⟨dis, wDis, -, hu, -⟩ := unique_distance_groups ring4.disTol (by norm_num [ring4]) ring4.allDistances (by
    intro x hx
    obtain ⟨k, hk, l, hl, rfl⟩ := (ring4.mem_allDistances ring4_uniform.toIdentical).mp hx
    exact lt_of_lt_of_le (by norm_num [ring4]) (le_max_left _ _))
  obtain ⟨es, g, Qs, Qs', h1, -, h2, h3, -⟩ := temperature_balanced (alpha := 1 / 10 ^ 6) (K := fun t _ s r => fls t (1 / 10 ^ 6) (pairOf s r) true true) (by norm_num) (fun _ _ _ => rfl) twoClusters_ok
    (alike_balanced ring4_uniform.toIdentical twoClusters_ok ring4_alike) ring4_uniform ring4_spaced hu (time := [3600, 10 ^ 6, 10 ^ 9]) (by norm_num) (by norm_num) (thr := 3600) (by norm_num)
  exact ⟨dis, wDis, es, g, Qs, Qs', hu, h1, h2, h3⟩

/-- Two boreholes of different lengths, uniform temperature. -/
example : ∃ dist, Sim.mixed2.DistOk dist ∧
    temperatureSimilarities (fun t p => fls t (1 / 10 ^ 6) p true true) Sim.mixed2 dist (segmentList ((List.range 2).map Sim.mixed2.bore) ((List.range 2).map Sim.mixed2.ns) ((List.range 2).map Sim.mixed2.rs)).length
      [3600, 10 ^ 9] 3600 =
    temperatureDetailed (fun t _ s r => fls t (1 / 10 ^ 6) (pairOf s r) true true) ((List.range 2).map Sim.mixed2.bore) ((List.range 2).map Sim.mixed2.ns) ((List.range 2).map Sim.mixed2.rs) [3600, 10 ^ 9] 3600 := by
  obtain ⟨dist, hd⟩ := Sim.mixed2.dist_exists Sim.mixed2_separated.toDistinct.valid
  exact ⟨dist, hd, (similarities_solve (K := fun t _ s r => fls t (1 / 10 ^ 6) (pairOf s r) true true) Sim.mixed2_separated.toDistinct.valid Sim.mixed2_separated.exact hd (fun _ _ _ => rfl) [3600, 10 ^ 9] 3600).1⟩

/-- The second segment of the third of the four boreholes in a row, among the segments of the solver. -/
example : ∃ k : Fin (segmentList fieldRow [2, 2, 2, 2] quarters).length, (fieldRow[2].segments [1 / 4, 3 / 4])[1]? = some (segmentList fieldRow [2, 2, 2, 2] quarters)[k] :=
  ⟨_, segPlace_segment quarters_splits.1 (2 : Fin 4) (1 : Fin 2)⟩

end Verif.Gf
