import Verif.Sol.EqProps
import Verif.Sol.SimUniform

/-!
# The `Equivalent` solver for fields of identical boreholes (C86): comparison to the `Detailed` solver
-/

noncomputable section

namespace Verif.Sol

open Bore Classical

/-- When the distances are equal or differ by more than the tolerance, `self.dis` (l. 404) are positive and contain all distances larger than the smallest. -/
theorem distances_mem {tol : ℝ} (ht : 0 < tol) {all dis : List ℝ} {wDis : List ℕ} (hpos : ∀ x ∈ all, 0 < x) (hu : UniqueDistance tol all dis wDis) {r : ℝ} (hr : r ∈ all)
    (hrmin : ∀ x ∈ all, r ≤ x) (hsep : ∀ x ∈ all, ∀ y ∈ all, x < y → (1 + tol) * x ≤ y) : (∀ d ∈ dis.tail, 0 < d) ∧ ∀ x ∈ all, r < x → x ∈ dis.tail := by
  obtain ⟨dis', w', gs, hu', hperm, hsort, hg, hd, -, -, -⟩ := unique_distance_groups tol ht all hpos
  obtain ⟨rfl, -⟩ := unique_distance_unique tol all hu hu'
  have hmem : ∀ g ∈ gs, ∀ x ∈ g, x ∈ all := fun g hgm x hx => hperm.mem_iff.mp (List.mem_flatten.mpr ⟨g, hgm, hx⟩)
  have hconst : ∀ g ∈ gs, ∀ x ∈ g, npMean g = x := by
    intro g hgm x hx
    obtain ⟨a, t, e, h2⟩ := Sim.grouped_get hg hgm
    have hall : ∀ y ∈ g, y = a := by
      intro y hy
      have hy' := hy
      rw [e] at hy'
      rcases List.mem_cons.mp hy' with rfl | hy'
      · rfl
      · obtain ⟨h3, h4⟩ := h2 y hy'
        rcases h3.eq_or_lt with h | h
        · exact h.symm
        · exact absurd h4 (not_lt.mpr (hsep a (hmem g hgm a (by rw [e]; exact List.mem_cons_self)) y (hmem g hgm y hy) h))
    rw [hall x hx]
    exact Sim.mean_const (by rw [e]; exact List.mem_cons_self) hall
  refine ⟨fun d hdm => ?_, fun x hx hrx => ?_⟩
  · have := List.mem_of_mem_tail hdm
    rw [hd] at this
    obtain ⟨g, hgm, rfl⟩ := List.mem_map.mp this
    obtain ⟨a, t, e, -⟩ := Sim.grouped_get hg hgm
    have ha : a ∈ g := by rw [e]; exact List.mem_cons_self
    rw [hconst g hgm a ha]
    exact hpos a (hmem g hgm a ha)
  · obtain ⟨g, hgm, hxg⟩ := List.mem_flatten.mp (hperm.mem_iff.mpr hx)
    rw [hd, ← hconst g hgm x hxg]
    cases gs with
    | nil => simp at hgm
    | cons g0 gs =>
      rcases List.mem_cons.mp hgm with rfl | h
      · exfalso
        obtain ⟨g', hg', hrg⟩ := List.mem_flatten.mp (hperm.mem_iff.mpr hr)
        rcases List.mem_cons.mp hg' with rfl | h'
        · have h1 := hconst _ hgm x hxg
          have h2 := hconst _ hgm r hrg
          linarith
        · rw [List.flatten_cons, List.pairwise_append] at hsort
          have := hsort.2.2 x hxg r (List.mem_flatten.mpr ⟨g', h', hrg⟩)
          linarith
      · exact List.mem_map_of_mem h

/-- `self.dis` (l. 404) are positive. -/
theorem distances_pos {tol : ℝ} (ht : 0 < tol) {all dis : List ℝ} {wDis : List ℕ} (hpos : ∀ x ∈ all, 0 < x) (hu : UniqueDistance tol all dis wDis) : ∀ d ∈ dis.tail, 0 < d := by
  obtain ⟨dis', w', gs, hu', hperm, hsort, hg, hd, -, -, -⟩ := unique_distance_groups tol ht all hpos
  obtain ⟨rfl, -⟩ := unique_distance_unique tol all hu hu'
  intro d hdm
  have := List.mem_of_mem_tail hdm
  rw [hd] at this
  obtain ⟨g, hgm, rfl⟩ := List.mem_map.mp this
  obtain ⟨a, t, rfl, h2⟩ := Sim.grouped_get hg hgm
  have ha := hpos a (hperm.mem_iff.mp (List.mem_flatten.mpr ⟨_, hgm, List.mem_cons_self⟩))
  have hm := Sim.mean_bounds (g := a :: t) (by simp) (lo := a) (hi := (1 + tol) * a) fun y hy => by
    rcases List.mem_cons.mp hy with rfl | hy
    · exact ⟨le_rfl, by nlinarith⟩
    · exact ⟨(h2 y hy).1, (h2 y hy).2.le⟩
  linarith [hm.1]

namespace EqIn

variable (E : EqIn)

/-- The boreholes of the equivalent borehole `i`, by index. -/
def cluster (i : ℕ) : List ℕ := ((List.zip (List.range E.N) E.clusters.1).filter fun x => x.2 = i).map fun x => x.1

theorem members_eq (i : ℕ) : E.members i = (E.cluster i).map E.bore := by
  unfold members cluster
  rw [List.zip_map_left, List.filter_map, List.map_map, List.map_map]
  rfl

theorem cluster_perm (hc : CutOk E.cut) : ((List.range E.clusters.2).map E.cluster).flatten.Perm (List.range E.N) := by
  have h := labels_perm E.clusters.2 (List.zip (List.range E.N) E.clusters.1) fun x hx => (E.clusters_spec hc).2.1 _ (List.of_mem_zip hx).2
  have e : (List.zip (List.range E.N) E.clusters.1).map (fun x => x.1) = List.range E.N := List.map_fst_zip (by simp [(E.clusters_spec hc).1])
  rw [e] at h
  rw [← List.flatMap_def]
  exact h

/-- Distances of the field (l. 346, 404). -/
def allDistances : List ℝ :=
  match eqOf ((List.range E.N).map E.bore) with
  | none => []
  | some f => distances f f

/-- The solver after `find_groups`, for the equivalent boreholes `es` and the unique distances `dis` of the field. -/
def solver (es : List EqBore) (dis : List ℝ) (n : ℕ) (rs : List ℝ) : EqSol := ⟨es.length, fun i => es.getD i ⟨0, 0, 0, []⟩, n, rs, E.tol, dis.tail⟩

/-- The field with its segments, as given to the other solvers. -/
def field (n : ℕ) : Sim := ⟨E.N, E.bore, fun _ => n, fun _ => uniformRatios n, E.tol, E.disTol⟩

/-- No two boreholes are closer than the radius. -/
def Apart (rb : ℝ) : Prop := ∀ k < E.N, ∀ l < E.N, k ≠ l → rb < (E.bore k).distance (E.bore l)

/-- No two boreholes are within the tolerance of the radius from each other. -/
def Spaced (rb : ℝ) : Prop := ∀ k < E.N, ∀ l < E.N, k ≠ l → (1 + E.disTol) * rb ≤ (E.bore k).distance (E.bore l)

theorem posDist_eq (k l : ℕ) {rb : ℝ} (h : (E.bore k).rb = rb) : posDist rb ((E.bore k).x, (E.bore k).y) ((E.bore l).x, (E.bore l).y) = (E.bore k).distance (E.bore l) := by
  unfold posDist Borehole.distance
  rw [h, max_comm]
  congr 2
  ring

theorem allDistances_eq {H D rb : ℝ} {n : ℕ} (hU : (E.field n).Identical H D rb n) :
    E.allDistances = ((List.range E.N).flatMap fun l => (List.range E.N).map fun k => (E.bore k).distance (E.bore l)) := by
  have hN : 0 < E.N := hU.size
  have hrb : ∀ k < E.N, (E.bore k).rb = rb := hU.rb_eq
  obtain ⟨m, hm⟩ : ∃ m, E.N = m + 1 := ⟨E.N - 1, by omega⟩
  have he : eqOf ((List.range E.N).map E.bore) = some ⟨(E.bore 0).H, (E.bore 0).D, (E.bore 0).rb, ((List.range E.N).map E.bore).map fun b => (b.x, b.y)⟩ := by
    rw [hm, List.range_succ_eq_map]
    rfl
  unfold allDistances
  rw [he]
  simp only [distances, List.map_map, List.flatMap_map]
  rw [List.flatMap_def, List.flatMap_def]
  congr 1
  refine List.map_congr_left fun l _ => List.map_congr_left fun k hk => ?_
  rw [hrb 0 hN]
  exact E.posDist_eq k l (hrb k (List.mem_range.mp hk))

theorem mem_allDistances {H D rb : ℝ} {n : ℕ} (hU : (E.field n).Identical H D rb n) {x : ℝ} :
    x ∈ E.allDistances ↔ ∃ k < E.N, ∃ l < E.N, x = (E.bore k).distance (E.bore l) := by
  rw [E.allDistances_eq hU]
  simp only [List.mem_flatMap, List.mem_range, List.mem_map]
  constructor
  · rintro ⟨l, hl, k, hk, rfl⟩; exact ⟨k, hk, l, hl, rfl⟩
  · rintro ⟨k, hk, l, hl, rfl⟩; exact ⟨l, hl, k, hk, rfl⟩

/-- What is used of the equivalent boreholes of a field of identical boreholes. -/
theorem uniform_equivalents (hc : CutOk E.cut) {H D rb : ℝ} {n : ℕ} (hU : (E.field n).Identical H D rb n) :
    ∃ es, E.equivalents = some es ∧ es.length = E.clusters.2 ∧
      ∀ i < E.clusters.2, es.getD i ⟨0, 0, 0, []⟩ = ⟨H, D, rb, (E.cluster i).map fun k => ((E.bore k).x, (E.bore k).y)⟩ := by
  obtain ⟨es, h1, h2⟩ := E.equivalents_some hc hU.size
  have hlen : es.length = E.clusters.2 := by rw [← h2.length_eq, List.length_range]
  refine ⟨es, h1, hlen, fun i hi => ?_⟩
  rw [List.getD_eq_getElem _ _ (by omega)]
  have h := (List.forall₂_iff_get.mp h2).2 i (by simpa using hi) (by omega)
  simp only [List.get_eq_getElem, List.getElem_range] at h
  obtain ⟨hp, b, t, hm, e1, e2, e3⟩ := eqOf_represents h
  have hb : b ∈ E.members i := by rw [hm]; exact List.mem_cons_self
  rw [E.members_eq] at hb hp
  obtain ⟨k, hk, rfl⟩ := List.mem_map.mp hb
  have hkN : k < E.N := List.mem_range.mp ((E.cluster_perm hc).mem_iff.mp (List.mem_flatten.mpr ⟨_, List.mem_map_of_mem (List.mem_range.mpr hi), hk⟩))
  obtain ⟨eH, eD, er, ep⟩ : ∃ eH eD er ep, es[i] = ⟨eH, eD, er, ep⟩ := ⟨_, _, _, _, rfl⟩
  have f1 : (E.bore k).H = H := hU.H_eq k hkN
  have f2 : (E.bore k).D = D := hU.D_eq k hkN
  have f3 : (E.bore k).rb = rb := hU.rb_eq k hkN
  rw [f1] at e1
  rw [f2] at e2
  rw [f3] at e3
  rw [List.map_map] at hp
  cases hes : es[i] with
  | mk a b c d =>
    rw [hes] at e1 e2 e3 hp
    simp only at e1 e2 e3 hp
    subst e1 e2 e3
    rw [hp]
    rfl

theorem distances_radius {H D rb : ℝ} {n : ℕ} (hU : (E.field n).Identical H D rb n) : (∀ x ∈ E.allDistances, 0 < x ∧ rb ≤ x) ∧ rb ∈ E.allDistances := by
  have hN : 0 < E.N := hU.size
  have hrb := hU.pos.2.2.1
  constructor
  · intro x hx
    obtain ⟨k, hk, l, hl, rfl⟩ := (E.mem_allDistances hU).mp hx
    have : rb ≤ (E.bore k).distance (E.bore l) := by
      have h : (E.bore k).rb = rb := hU.rb_eq k hk
      rw [← h]
      exact le_max_left _ _
    exact ⟨by linarith, this⟩
  · refine (E.mem_allDistances hU).mpr ⟨0, hN, 0, hN, ?_⟩
    have h : (E.bore 0).rb = rb := hU.rb_eq 0 hN
    unfold Borehole.distance
    rw [h]
    simp [hrb.le]

theorem cluster_lt (hc : CutOk E.cut) : ∀ i < E.clusters.2, ∀ k ∈ E.cluster i, k < E.N := fun i hi k hk =>
  List.mem_range.mp ((E.cluster_perm hc).mem_iff.mp (List.mem_flatten.mpr ⟨_, List.mem_map_of_mem (List.mem_range.mpr hi), hk⟩))

theorem cluster_disjoint (hc : CutOk E.cut) :
    ∀ i < E.clusters.2, (E.cluster i).Nodup ∧ ∀ j < E.clusters.2, i ≠ j → ∀ k ∈ E.cluster i, ∀ l ∈ E.cluster j, k ≠ l := by
  have hnd : ((List.range E.clusters.2).map E.cluster).flatten.Nodup := (E.cluster_perm hc).nodup_iff.mpr List.nodup_range
  rw [List.nodup_flatten] at hnd
  intro i hi
  refine ⟨hnd.1 _ (List.mem_map_of_mem (List.mem_range.mpr hi)), fun j hj hij k hk l hl e => ?_⟩
  subst e
  have hp := hnd.2
  rw [List.pairwise_map] at hp
  rcases Nat.lt_or_ge i j with h | h
  · have := List.pairwise_iff_getElem.mp hp i j (by simpa using hi) (by simpa using hj) h
    simp only [List.getElem_range] at this
    exact this hk hl
  · have := List.pairwise_iff_getElem.mp hp j i (by simpa using hj) (by simpa using hi) (by omega)
    simp only [List.getElem_range] at this
    exact this hl hk

/-- The distances of a pair of equivalent boreholes are distances of different boreholes. -/
theorem between_mem (hc : CutOk E.cut) {H D rb : ℝ} {n : ℕ} (hU : (E.field n).Identical H D rb n) (dis : List ℝ) {es : List EqBore} (hes : E.equivalents = some es) {i j : ℕ}
    (hi : i < es.length) (hj : j < es.length) {x : ℝ} (hx : x ∈ (E.solver es dis n (uniformRatios n)).between i j) :
    ∃ k < E.N, ∃ l < E.N, k ≠ l ∧ x = (E.bore k).distance (E.bore l) := by
  obtain ⟨es', hes', hlen, hget⟩ := E.uniform_equivalents hc hU
  obtain rfl := Option.some.inj (hes.symm.trans hes')
  have hclN := E.cluster_lt hc
  have hdisj := E.cluster_disjoint hc
  have ei : (E.solver es dis n (uniformRatios n)).eb i = ⟨H, D, rb, (E.cluster i).map fun k => ((E.bore k).x, (E.bore k).y)⟩ := hget i (by omega)
  have ej : (E.solver es dis n (uniformRatios n)).eb j = ⟨H, D, rb, (E.cluster j).map fun k => ((E.bore k).x, (E.bore k).y)⟩ := hget j (by omega)
  unfold EqSol.between at hx
  split_ifs at hx with hij
  · rw [ei] at hx
    unfold distancesOff at hx
    obtain ⟨⟨q, qi⟩, hq, hx⟩ := List.mem_flatMap.mp hx
    obtain ⟨⟨p, pi⟩, hp0, rfl⟩ := List.mem_map.mp hx
    have hp' := List.mem_filter.mp hp0
    have hne : pi ≠ qi := by simpa using hp'.2
    have hq := List.mk_mem_zipIdx_iff_getElem?.mp hq
    have hp := List.mk_mem_zipIdx_iff_getElem?.mp hp'.1
    clear hp' hp0
    rw [List.getElem?_map, Option.map_eq_some_iff] at hq hp
    obtain ⟨l, hl, rfl⟩ := hq
    obtain ⟨k, hk, rfl⟩ := hp
    have hkN := hclN i (by omega) k (List.mem_of_getElem? hk)
    refine ⟨k, hkN, l, hclN i (by omega) l (List.mem_of_getElem? hl), ?_, E.posDist_eq k l (hU.rb_eq k hkN)⟩
    rintro rfl
    obtain ⟨hk1, hk2⟩ := List.getElem?_eq_some_iff.mp hk
    obtain ⟨hl1, hl2⟩ := List.getElem?_eq_some_iff.mp hl
    exact hne ((List.Nodup.getElem_inj_iff (hdisj i (by omega)).1).mp (hk2.trans hl2.symm))
  · rw [ei, ej] at hx
    unfold distances at hx
    obtain ⟨q, hq, hx⟩ := List.mem_flatMap.mp hx
    obtain ⟨p, hp, rfl⟩ := List.mem_map.mp hx
    obtain ⟨l, hl, rfl⟩ := List.mem_map.mp hq
    obtain ⟨k, hk, rfl⟩ := List.mem_map.mp hp
    have hkN := hclN i (by omega) k hk
    exact ⟨k, hkN, l, hclN j (by omega) l hl, (hdisj i (by omega)).2 j (by omega) hij k hk l hl, E.posDist_eq k l (hU.rb_eq k hkN)⟩

/-- The distance used for the distance of two boreholes of a pair of equivalent boreholes is within the tolerance. -/
theorem uniform_near (hc : CutOk E.cut) {H D rb : ℝ} {n : ℕ} (hU : (E.field n).Identical H D rb n) (hA : E.Spaced rb) {dis : List ℝ} {wDis : List ℕ}
    (hu : UniqueDistance E.disTol E.allDistances dis wDis) {es : List EqBore} (hes : E.equivalents = some es) {i j : ℕ} (hi : i < es.length) (hj : j < es.length) {x : ℝ}
    (hx : x ∈ (E.solver es dis n (uniformRatios n)).between i j) : dis.tail ≠ [] ∧ 0 < x ∧ |x - rep dis.tail x| ≤ E.disTol * x := by
  obtain ⟨k, hk, l, hl, hkl, rfl⟩ := E.between_mem hc hU dis hes hi hj hx
  obtain ⟨hpos, hr⟩ := E.distances_radius hU
  have hm := (E.mem_allDistances hU).mpr ⟨k, hk, l, hl, rfl⟩
  obtain ⟨k', d, h1, h2, h3⟩ := (distances_close hU.disTol (fun x hx => (hpos x hx).1) hu hr fun x hx => (hpos x hx).2).2 _ hm (hA k hk l hl hkl)
  refine ⟨?_, (hpos _ hm).1, by rw [rep_eq h1 h2]; exact h3⟩
  intro h0
  rw [h0] at h1
  simp [nearest] at h1

/-- The solver of a field of identical boreholes has exact similarities, apart from the distances. -/
theorem uniform_similar (hc : CutOk E.cut) {H D rb : ℝ} {n : ℕ} (hU : (E.field n).Identical H D rb n) (hA : E.Spaced rb) {dis : List ℝ} {wDis : List ℕ}
    (hu : UniqueDistance E.disTol E.allDistances dis wDis) {es : List EqBore} (hes : E.equivalents = some es) : (E.solver es dis n (uniformRatios n)).Similar := by
  obtain ⟨es', hes', hlen, hget⟩ := E.uniform_equivalents hc hU
  obtain rfl := Option.some.inj (hes.symm.trans hes')
  have hperm := E.cluster_perm hc
  have hN : 0 < E.N := hU.size
  obtain ⟨hH, hD, hrb, hn⟩ := hU.pos
  have hn2 : 0 < E.clusters.2 := by
    by_contra h0
    have : E.clusters.2 = 0 := by omega
    rw [this] at hperm
    have := hperm.length_eq
    simp at this
    omega
  obtain ⟨S, hS⟩ : ∃ S, S = E.solver es dis n (uniformRatios n) := ⟨_, rfl⟩
  have hSn : S.n = E.clusters.2 := by rw [hS]; exact hlen
  have hSe : ∀ i < S.n, S.eb i = ⟨H, D, rb, (E.cluster i).map fun k => ((E.bore k).x, (E.bore k).y)⟩ := by
    intro i hi
    rw [hSn] at hi
    rw [hS]
    exact hget i hi
  have hSns : S.ns = n := by rw [hS]; rfl
  have hSrs : S.rs = uniformRatios n := by rw [hS]; rfl
  have hSt : S.tol = E.tol := by rw [hS]; rfl
  have hSd : S.dis = dis.tail := by rw [hS]; rfl
  have hV : S.sim.Identical H D rb n := by
    refine ⟨by show 0 < S.n; omega, fun k hk => ?_, fun k hk => ?_, fun k hk => ?_, fun k hk => rfl, fun k _ => hSns, fun k _ => hSrs, hU.pos, ?_, one_pos⟩
    · show (S.eb k).H = H
      rw [hSe k hk]
    · show (S.eb k).D = D
      rw [hSe k hk]
    · show (S.eb k).rb = rb
      rw [hSe k hk]
    · show 0 < S.tol ∧ S.tol * (2 * (H + D) + 1) ≤ H / n ∧ 1 / 10 ^ 30 < H / n
      rw [hSt]
      exact hU.tol_eq
  have hX := Sim.Identical.same S.sim hV
  obtain ⟨hpos, hr⟩ := E.distances_radius hU
  rw [← hS]
  refine ⟨by omega, fun i hi => ?_, by rw [hSrs, hSns]; simp [uniformRatios], fun i hi => by rw [hSe i hi, hSe 0 (by omega)], by rw [hSe 0 (by omega)]; exact hrb,
    fun i hi a ha => hX.len i hi a ha, fun k hk i hi _ => by rw [hSe k hk, hSe i hi]; exact ⟨rfl, rfl⟩,
    fun k hk l hl m hm o ho _ => by rw [hSe k hk, hSe l hl, hSe m hm, hSe o ho]; exact ⟨⟨rfl, rfl⟩, rfl, rfl⟩,
    fun i hi j hj => hX.seg i hi j hj, ?_,
    by rw [hSd]; exact distances_pos hU.disTol (fun x hx => (hpos x hx).1) hu, fun i hi j hj hne => ?_⟩
  · rw [hSe i hi]
    have := E.members_ne hc (i := i) (by omega)
    rw [E.members_eq] at this
    intro h0
    simp only [List.map_eq_nil_iff] at h0
    exact this (by rw [h0]; rfl)
  · rw [hSd]
    exact (distances_close hU.disTol (fun x hx => (hpos x hx).1) hu hr fun x hx => (hpos x hx).2).1
  · obtain ⟨x, hx⟩ := List.exists_mem_of_ne_nil _ hne
    rw [hSd]
    rw [hS] at hx
    exact (E.uniform_near hc hU hA hu hes (by omega) (by omega) hx).1

theorem uniform_spaced {H D rb : ℝ} {n : ℕ} (hU : (E.field n).UniformField H D rb n) (hA : E.Apart rb) : E.Spaced rb := by
  intro k hk l hl hkl
  have hN : 0 < E.N := hU.size
  have h0 : (E.bore 0).distance (E.bore 0) = rb := by
    have h : (E.bore 0).rb = rb := hU.rb_eq 0 hN
    unfold Borehole.distance
    rw [h]
    simp [hU.pos.2.2.1.le]
  have h : (1 + E.disTol) * (E.bore 0).distance (E.bore 0) ≤ (E.bore k).distance (E.bore l) := hU.dist 0 hN 0 hN k hk l hl (by
    show (E.bore 0).distance (E.bore 0) < (E.bore k).distance (E.bore l)
    rw [h0]
    exact hA k hk l hl hkl)
  rwa [h0] at h

/-- The solver of a field of identical boreholes whose distances are equal or differ by more than the tolerance has exact similarities. -/
theorem uniform_exact (hc : CutOk E.cut) {H D rb : ℝ} {n : ℕ} (hU : (E.field n).UniformField H D rb n) (hA : E.Apart rb) {dis : List ℝ} {wDis : List ℕ}
    (hu : UniqueDistance E.disTol E.allDistances dis wDis) {es : List EqBore} (hes : E.equivalents = some es) : (E.solver es dis n (uniformRatios n)).Exact := by
  refine ⟨E.uniform_similar hc hU.toIdentical (E.uniform_spaced hU hA) hu hes, fun i hi j hj x hx => ?_⟩
  obtain ⟨k, hk, l, hl, hkl, rfl⟩ := E.between_mem hc hU.toIdentical dis hes hi hj hx
  obtain ⟨hpos, hr⟩ := E.distances_radius hU.toIdentical
  exact (distances_mem hU.disTol (fun x hx => (hpos x hx).1) hu hr (fun x hx => (hpos x hx).2) (by
    intro x hx y hy hxy
    obtain ⟨k, hk, l, hl, rfl⟩ := (E.mem_allDistances hU.toIdentical).mp hx
    obtain ⟨m, hm, o, ho, rfl⟩ := (E.mem_allDistances hU.toIdentical).mp hy
    exact hU.dist k hk l hl m hm o ho hxy)).2 _ ((E.mem_allDistances hU.toIdentical).mpr ⟨k, hk, l, hl, rfl⟩) (hA k hk l hl hkl)

/-- The mean of the finite line source solutions is that of the response factors of the `Detailed` solver. -/
theorem clusterMean_detailed (t alpha : ℝ) (hc : CutOk E.cut) {H D rb : ℝ} {n : ℕ} (hU : (E.field n).Identical H D rb n) (dis : List ℝ) {es : List EqBore}
    (hes : E.equivalents = some es) {M' : ℕ → ℕ → ℝ}
    (h2 : ∀ k < E.N, ∀ l < E.N, ∀ a < n, ∀ b < n, M' (b + (E.field n).first l) (a + (E.field n).first k) =
      FLS.fls t alpha (FLS.pairOf ((E.field n).seg k a) ((E.field n).seg l b)) true true) {i j a b : ℕ} (hi' : i < E.clusters.2) (hj' : j < E.clusters.2) (ha : a < n) (hb : b < n) :
    (E.solver es dis n (uniformRatios n)).clusterMean t alpha i j a b =
      ((E.cluster j).map fun l => ((E.cluster i).map fun k => M' (b + n * l) (a + n * k)).sum).sum / (E.cluster j).length := by
  obtain ⟨es', hes', hlen, hget⟩ := E.uniform_equivalents hc hU
  obtain rfl := Option.some.inj (hes.symm.trans hes')
  have hFE := Sim.Identical.same _ hU
  have hclN := E.cluster_lt hc
  have hf1 : ∀ k, (E.field n).first k = n * k := by
    intro k
    simp only [Sim.first, field]
    rw [List.map_const', List.sum_replicate, List.length_range, smul_eq_mul, Nat.mul_comm]
  unfold EqSol.clusterMean
  have ei : (E.solver es dis n (uniformRatios n)).eb i = ⟨H, D, rb, (E.cluster i).map fun k => ((E.bore k).x, (E.bore k).y)⟩ := hget i hi'
  have ej : (E.solver es dis n (uniformRatios n)).eb j = ⟨H, D, rb, (E.cluster j).map fun k => ((E.bore k).x, (E.bore k).y)⟩ := hget j hj'
  rw [ei, ej]
  simp only [List.map_map, List.length_map]
  congr 2
  refine List.map_congr_left fun l hl => ?_
  have hlN := hclN j hj' l hl
  simp only [Function.comp_apply]
  congr 1
  refine List.map_congr_left fun k hk => ?_
  have hkN := hclN i hi' k hk
  have h3 := h2 k hkN l hlN a ha b hb
  rw [hf1, hf1] at h3
  rw [h3]
  simp only [Function.comp_apply]
  have hs1 := (E.field n).seg_uniform (k := k) (n := n) rfl (hU.tilt_eq k hkN) ha
  have hs2 := (E.field n).seg_uniform (k := l) (n := n) rfl (hU.tilt_eq l hlN) hb
  have hs3 := (E.solver es dis n (uniformRatios n)).sim.seg_uniform (k := i) (n := n) rfl rfl ha
  have hs4 := (E.solver es dis n (uniformRatios n)).sim.seg_uniform (k := j) (n := n) rfl rfl hb
  have hd := (E.field n).seg_distance (k := k) (l := l) (a := a) (b := b) (hU.tilt_eq k hkN) (hU.tilt_eq l hlN) (by rw [hFE.ratios k hkN]; exact ha) (by rw [hFE.ratios l hlN]; exact hb)
  rw [hU.H_eq k hkN, hU.D_eq k hkN] at hs1
  rw [hU.H_eq l hlN, hU.D_eq l hlN] at hs2
  have g1 : ((E.solver es dis n (uniformRatios n)).sim.bore i).H = H ∧ ((E.solver es dis n (uniformRatios n)).sim.bore i).D = D := by
    constructor
    · show ((E.solver es dis n (uniformRatios n)).eb i).H = H; rw [ei]
    · show ((E.solver es dis n (uniformRatios n)).eb i).D = D; rw [ei]
  have g2 : ((E.solver es dis n (uniformRatios n)).sim.bore j).H = H ∧ ((E.solver es dis n (uniformRatios n)).sim.bore j).D = D := by
    constructor
    · show ((E.solver es dis n (uniformRatios n)).eb j).H = H; rw [ej]
    · show ((E.solver es dis n (uniformRatios n)).eb j).D = D; rw [ej]
  rw [g1.1, g1.2] at hs3
  rw [g2.1, g2.2] at hs4
  unfold FLS.pairOf
  rw [hd, hs1.1, hs1.2, hs2.1, hs2.2, hs3.1, hs3.2, hs4.1, hs4.2, E.posDist_eq k l (hU.rb_eq k hkN)]
  rfl

/-- **C86** (identical boreholes).  For a field of identical vertical boreholes with uniform segments, no two within the tolerance of the radius from each other, whose tolerance
separates the segments, the boreholes are split into clusters such that every response factor of the `Equivalent` solver differs from the mean over the receiving cluster of the sum
over the emitting cluster of the response factors of the `Detailed` solver by at most `-log (1 - disTol)` times the number of emitting boreholes other than the receiver; when the distances are
equal or differ by more than the tolerance, it is this mean. -/
theorem equivalent_uniform {t alpha : ℝ} (hα : 0 < alpha) (ht : 0 < t) (hc : CutOk E.cut) {H D rb : ℝ} {n : ℕ} (hU : (E.field n).Identical H D rb n) (hA : E.Spaced rb)
    (htol : E.disTol < 1) {dis : List ℝ} {wDis : List ℕ} (hu : UniqueDistance E.disTol E.allDistances dis wDis) {K : Bool → Borehole → Borehole → ℝ}
    (hK : ∀ s r, K true s r = FLS.fls t alpha (FLS.pairOf s r) true true) :
    ∃ es M M' cl, E.equivalents = some es ∧ (E.solver es dis n (uniformRatios n)).factors (EqSol.flsE t alpha) (fun g => FLS.fls t alpha g true true) = some M ∧
      detailed K ((List.range E.N).map E.bore) ((List.range E.N).map fun _ => n) ((List.range E.N).map fun _ => uniformRatios n) = some M' ∧
      cl.flatten.Perm (List.range E.N) ∧ List.Forall₂ (fun ks e => e.pos = ks.map fun k => ((E.bore k).x, (E.bore k).y)) cl es ∧
      ∀ i (hi : i < cl.length) j (hj : j < cl.length), ∀ a < n, ∀ b < n,
        |M (b + n * j) (a + n * i) - (cl[j].map fun l => (cl[i].map fun k => M' (b + n * l) (a + n * k)).sum).sum / cl[j].length| ≤
            (cl[i].length - if i = j then 1 else 0) * Real.log (1 / (1 - E.disTol)) ∧
          ((E.field n).UniformField H D rb n →
            M (b + n * j) (a + n * i) = (cl[j].map fun l => (cl[i].map fun k => M' (b + n * l) (a + n * k)).sum).sum / cl[j].length) := by
  obtain ⟨es, hes, hlen, hget⟩ := E.uniform_equivalents hc hU
  have hX := E.uniform_similar hc hU hA hu hes
  have hseg : ∀ i < es.length, ∀ a < n, 0 ≤ ((E.solver es dis n (uniformRatios n)).sim.seg i a).D := by
    intro i hi a ha
    rw [((E.solver es dis n (uniformRatios n)).sim.seg_uniform (k := i) (n := n) rfl rfl ha).2]
    have ei : (E.solver es dis n (uniformRatios n)).eb i = ⟨H, D, rb, (E.cluster i).map fun k => ((E.bore k).x, (E.bore k).y)⟩ := hget i (by omega)
    show 0 ≤ ((E.solver es dis n (uniformRatios n)).eb i).D + a * (((E.solver es dis n (uniformRatios n)).eb i).H / n)
    rw [ei]
    obtain ⟨hH, hD, -, -⟩ := hU.pos
    positivity
  obtain ⟨M, hM, h1⟩ := (E.solver es dis n (uniformRatios n)).equivalent_error hα ht hX hseg hU.disTol.le htol
    fun i hi j hj d hd => (E.uniform_near hc hU hA hu hes hi hj hd).2
  obtain ⟨M', hM', h2⟩ := (E.field n).detailed_entries t alpha (Sim.Identical.valid _ hU) (Sim.Identical.same _ hU) hK
  have hf2 : ∀ k, (E.solver es dis n (uniformRatios n)).sim.first k = n * k := by
    intro k
    simp only [Sim.first, EqSol.sim, solver]
    rw [List.map_const', List.sum_replicate, List.length_range, smul_eq_mul, Nat.mul_comm]
  refine ⟨es, M, M', (List.range E.clusters.2).map E.cluster, hes, hM, hM', E.cluster_perm hc, ?_, fun i hi j hj a ha b hb => ?_⟩
  · rw [List.forall₂_map_left_iff, List.forall₂_iff_get]
    refine ⟨by simp [hlen], fun i h1 h2 => ?_⟩
    have hi : i < E.clusters.2 := by simpa using h1
    have := hget i hi
    rw [List.getD_eq_getElem _ _ h2] at this
    simp only [List.get_eq_getElem, List.getElem_range]
    rw [this]
  · have hi' : i < E.clusters.2 := by simpa using hi
    have hj' : j < E.clusters.2 := by simpa using hj
    have hmean := E.clusterMean_detailed t alpha hc hU dis hes h2 hi' hj' ha hb
    have ei : (E.solver es dis n (uniformRatios n)).eb i = ⟨H, D, rb, (E.cluster i).map fun k => ((E.bore k).x, (E.bore k).y)⟩ := hget i hi'
    simp only [List.getElem_map, List.getElem_range]
    constructor
    · have h := h1 i (by show i < es.length; omega) j (by show j < es.length; omega) a ha b hb
      rw [hf2, hf2, hmean, ei, List.length_map] at h
      exact h
    · intro hU'
      have hA' : E.Apart rb := fun k hk l hl hkl => by
        have h1 := hA k hk l hl hkl
        have h2 := mul_pos hU.disTol hU.pos.2.2.1
        change 0 < E.disTol * rb at h2
        linarith
      obtain ⟨M2, hM2, h⟩ := (E.solver es dis n (uniformRatios n)).equivalent_exact (E.uniform_exact hc hU' hA' hu hes) t alpha
      obtain rfl := Option.some.inj (hM.symm.trans hM2)
      have h := h i (by show i < es.length; omega) j (by show j < es.length; omega) a ha b hb
      rw [hf2, hf2] at h
      rw [h, ← hmean]
      rfl

theorem abs_sum_sub_le {α : Type*} (l : List α) {f g h : α → ℝ} (hl : ∀ x ∈ l, |f x - g x| ≤ h x) : |(l.map f).sum - (l.map g).sum| ≤ (l.map h).sum := by
  induction l with
  | nil => simp
  | cons a l ih =>
    have h1 := hl a List.mem_cons_self
    have h2 := ih fun x hx => hl x (List.mem_cons_of_mem _ hx)
    rw [List.map_cons, List.map_cons, List.map_cons, List.sum_cons, List.sum_cons, List.sum_cons, add_sub_add_comm]
    refine (abs_add_le _ _).trans ?_
    linarith

theorem sum_ite_range (f : ℕ → ℝ) {m j : ℕ} (hj : j < m) : ((List.range m).map fun i => f i - if i = j then (1 : ℝ) else 0).sum = ((List.range m).map f).sum - 1 := by
  induction m with
  | zero => omega
  | succ m ih =>
    rw [List.range_succ, List.map_append, List.map_append, List.sum_append, List.sum_append]
    simp only [List.map_cons, List.map_nil, List.sum_cons, List.sum_nil, add_zero]
    by_cases h : j = m
    · subst h
      have : ((List.range j).map fun i => f i - if i = j then (1 : ℝ) else 0) = (List.range j).map f := by
        refine List.map_congr_left fun i hi => ?_
        rw [if_neg (List.mem_range.mp hi).ne, sub_zero]
      rw [this, if_pos rfl]
      ring
    · rw [ih (by omega), if_neg (Ne.symm h)]
      ring

/-- **C86** (uniform heat extraction).  Under the same hypotheses, for any two positions of segments, the temperature rise of the field for the same heat extraction from all boreholes,
summed over the boreholes with the numbers of boreholes of the equivalent boreholes as weights, differs from that of the `Detailed` solver by at most `-log (1 - disTol)` for every pair
of different boreholes; it is the same when the distances are equal or differ by more than the tolerance. -/
theorem equivalent_total {t alpha : ℝ} (hα : 0 < alpha) (ht : 0 < t) (hc : CutOk E.cut) {H D rb : ℝ} {n : ℕ} (hU : (E.field n).Identical H D rb n) (hA : E.Spaced rb)
    (htol : E.disTol < 1) {dis : List ℝ} {wDis : List ℕ} (hu : UniqueDistance E.disTol E.allDistances dis wDis) {K : Bool → Borehole → Borehole → ℝ}
    (hK : ∀ s r, K true s r = FLS.fls t alpha (FLS.pairOf s r) true true) :
    ∃ es M M', E.equivalents = some es ∧ (E.solver es dis n (uniformRatios n)).factors (EqSol.flsE t alpha) (fun g => FLS.fls t alpha g true true) = some M ∧
      detailed K ((List.range E.N).map E.bore) ((List.range E.N).map fun _ => n) ((List.range E.N).map fun _ => uniformRatios n) = some M' ∧
      ∀ a < n, ∀ b < n,
        |(es.zipIdx.map fun e => (e.1.pos.length : ℝ) * (es.zipIdx.map fun f => M (b + n * e.2) (a + n * f.2)).sum).sum -
            ((List.range E.N).map fun l => ((List.range E.N).map fun k => M' (b + n * l) (a + n * k)).sum).sum| ≤ E.N * (E.N - 1) * Real.log (1 / (1 - E.disTol)) ∧
          ((E.field n).UniformField H D rb n → (es.zipIdx.map fun e => (e.1.pos.length : ℝ) * (es.zipIdx.map fun f => M (b + n * e.2) (a + n * f.2)).sum).sum =
            ((List.range E.N).map fun l => ((List.range E.N).map fun k => M' (b + n * l) (a + n * k)).sum).sum) := by
  obtain ⟨es, M, M', cl, h1, h2, h3, hperm, hf, h⟩ := E.equivalent_uniform hα ht hc hU hA htol hu hK
  refine ⟨es, M, M', h1, h2, h3, fun a ha b hb => ?_⟩
  have hlen := hf.length_eq
  have hzip : ∀ g : EqBore × ℕ → ℝ, (es.zipIdx.map g).sum = ((List.range cl.length).map fun i => g (es.getD i ⟨0, 0, 0, []⟩, i)).sum := by
    intro g
    congr 1
    apply List.ext_getElem
    · simp [hlen]
    · intro i hi hi'
      have : i < es.length := by simpa using hi
      simp [List.getElem?_eq_getElem this]
  have hpos : ∀ i (hi : i < cl.length), (es.getD i ⟨0, 0, 0, []⟩).pos.length = cl[i].length := by
    intro i hi
    have := (List.forall₂_iff_get.mp hf).2 i hi (by omega)
    simp only [List.get_eq_getElem] at this
    rw [List.getD_eq_getElem _ _ (by omega), this, List.length_map]
  have hcl : ∀ g : List ℕ → ℝ, ((List.range cl.length).map fun i => g (cl.getD i [])).sum = (cl.map g).sum := by
    intro g
    congr 1
    apply List.ext_getElem
    · simp
    · intro i hi hi'
      have : i < cl.length := by simpa using hi
      simp [List.getElem?_eq_getElem this]
  have hflat : ∀ (cl : List (List ℕ)) (g : ℕ → ℝ), (cl.map fun ks => (ks.map g).sum).sum = (cl.flatten.map g).sum := by
    intro cl g
    induction cl with
    | nil => simp
    | cons c cl ih => rw [List.map_cons, List.sum_cons, ih, List.flatten_cons, List.map_append, List.sum_append]
  obtain ⟨mean, hmean⟩ : ∃ mean : ℕ → ℕ → ℝ, mean = fun j i => ((cl.getD j []).map fun l => ((cl.getD i []).map fun k => M' (b + n * l) (a + n * k)).sum).sum / (cl.getD j []).length := ⟨_, rfl⟩
  have hM : ∀ j < cl.length, ∀ i < cl.length, |M (b + n * j) (a + n * i) - mean j i| ≤ ((cl.getD i []).length - if i = j then 1 else 0) * Real.log (1 / (1 - E.disTol)) ∧
      ((E.field n).UniformField H D rb n → M (b + n * j) (a + n * i) = mean j i) := by
    intro j hj i hi
    rw [hmean]
    simp only [List.getD_eq_getElem _ _ hj, List.getD_eq_getElem _ _ hi]
    exact h i hi j hj a ha b hb
  have hlhs : (es.zipIdx.map fun e => (e.1.pos.length : ℝ) * (es.zipIdx.map fun f => M (b + n * e.2) (a + n * f.2)).sum).sum =
      ((List.range cl.length).map fun j => ((cl.getD j []).length : ℝ) * ((List.range cl.length).map fun i => M (b + n * j) (a + n * i)).sum).sum := by
    rw [hzip]
    congr 1
    refine List.map_congr_left fun j hj => ?_
    have hj := List.mem_range.mp hj
    rw [hpos j hj, hzip, List.getD_eq_getElem _ _ hj]
  have hrhs : ((List.range E.N).map fun l => ((List.range E.N).map fun k => M' (b + n * l) (a + n * k)).sum).sum =
      ((List.range cl.length).map fun j => ((cl.getD j []).length : ℝ) * ((List.range cl.length).map fun i => mean j i).sum).sum := by
    have step : ((List.range cl.length).map fun j => ((cl.getD j []).length : ℝ) * ((List.range cl.length).map fun i => mean j i).sum) =
        (List.range cl.length).map fun j => ((cl.getD j []).map fun l => ((List.range E.N).map fun k => M' (b + n * l) (a + n * k)).sum).sum := by
      refine List.map_congr_left fun j hj => ?_
      have hj := List.mem_range.mp hj
      rw [← List.sum_map_mul_left]
      have inner : ((List.range cl.length).map fun i => ((cl.getD j []).length : ℝ) * mean j i) =
          (List.range cl.length).map fun i => (fun ks : List ℕ => ((cl.getD j []).map fun l => (ks.map fun k => M' (b + n * l) (a + n * k)).sum).sum) (cl.getD i []) := by
        refine List.map_congr_left fun i hi => ?_
        rw [hmean]
        by_cases h0 : cl.getD j [] = []
        · simp only [h0, List.map_nil, List.sum_nil, List.length_nil, Nat.cast_zero, zero_mul]
        · have : ((cl.getD j []).length : ℝ) ≠ 0 := by exact_mod_cast (List.length_pos_iff.mpr h0).ne'
          dsimp only
          field_simp
      rw [inner, hcl fun ks : List ℕ => ((cl.getD j []).map fun l => (ks.map fun k => M' (b + n * l) (a + n * k)).sum).sum, EqSol.sum_swap]
      congr 1
      refine List.map_congr_left fun l _ => ?_
      rw [hflat]
      exact (hperm.map _).sum_eq
    rw [step, hcl fun ks => (ks.map fun l => ((List.range E.N).map fun k => M' (b + n * l) (a + n * k)).sum).sum, hflat]
    exact (hperm.map _).sum_eq.symm
  have hsize : ((List.range cl.length).map fun i => ((cl.getD i []).length : ℝ)).sum = E.N := by
    have e := hcl fun ks => (ks.length : ℝ)
    have e2 := hflat cl fun _ => (1 : ℝ)
    simp only [List.map_const', List.sum_replicate, nsmul_eq_mul, mul_one] at e2
    rw [e, e2, hperm.length_eq, List.length_range]
  rw [hlhs, hrhs]
  constructor
  · have hb1 := abs_sum_sub_le (List.range cl.length) (f := fun j => ((cl.getD j []).length : ℝ) * ((List.range cl.length).map fun i => M (b + n * j) (a + n * i)).sum)
      (g := fun j => ((cl.getD j []).length : ℝ) * ((List.range cl.length).map fun i => mean j i).sum)
      (h := fun j => ((cl.getD j []).length : ℝ) * ((E.N - 1) * Real.log (1 / (1 - E.disTol)))) (by
        intro j hj
        have hj := List.mem_range.mp hj
        rw [← mul_sub, abs_mul, abs_of_nonneg (Nat.cast_nonneg _)]
        refine mul_le_mul_of_nonneg_left ?_ (Nat.cast_nonneg _)
        refine (abs_sum_sub_le (List.range cl.length) fun i hi => (hM j hj i (List.mem_range.mp hi)).1).trans (le_of_eq ?_)
        rw [List.sum_map_mul_right, sum_ite_range _ hj, hsize])
    rw [List.sum_map_mul_right, hsize] at hb1
    refine hb1.trans (le_of_eq (by ring))
  · intro hU'
    congr 1
    refine List.map_congr_left fun j hj => ?_
    congr 2
    exact List.map_congr_left fun i hi => (hM j (List.mem_range.mp hj) i (List.mem_range.mp hi)).2 hU'

/-! ### Example -/

/-- Three boreholes of 150 m in a row, in clusters by temperature. -/
def eqRow3 : EqIn := ⟨3, Sim.row3.bore, 1 / 10 ^ 6, 1 / 100, twoClusters⟩

theorem eqRow3_uniform : (eqRow3.field 12).UniformField 150 4 (3 / 40) 12 := Sim.row3_uniform

theorem eqRow3_apart : eqRow3.Apart (3 / 40) := by
  intro k hk l hl hkl
  have hs : √((5 * (k : ℝ) - 5 * l) ^ 2 + (0 - 0) ^ 2) = |5 * (k : ℝ) - 5 * l| := by rw [sub_self, zero_pow two_ne_zero, add_zero, Real.sqrt_sq_eq_abs]
  show _ < max _ √((5 * (k : ℝ) - 5 * l) ^ 2 + (0 - 0) ^ 2)
  rw [hs]
  have hk : k < 3 := hk
  have hl : l < 3 := hl
  interval_cases k <;> interval_cases l <;> first | exact absurd rfl hkl | norm_num

/-- Three boreholes in a row at 5 m and 5.02 m: these distances are merged by the tolerance. -/
def eqBent3 : EqIn := ⟨3, Sim.bent3.bore, 1 / 10 ^ 6, 1 / 100, twoClusters⟩

theorem eqBent3_identical : (eqBent3.field 12).Identical 150 4 (3 / 40) 12 := Sim.bent3_identical

theorem eqBent3_spaced : eqBent3.Spaced (3 / 40) := by
  intro k hk l hl hkl
  obtain ⟨x, hx⟩ : ∃ x : ℕ → ℝ, x = fun k : ℕ => if k = 2 then 1002 / 100 else 5 * (k : ℝ) := ⟨_, rfl⟩
  have hs : √((x k - x l) ^ 2 + (0 - 0) ^ 2) = |x k - x l| := by rw [sub_self, zero_pow two_ne_zero, add_zero, Real.sqrt_sq_eq_abs]
  have hd : (eqBent3.bore k).distance (eqBent3.bore l) = max (3 / 40) √((x k - x l) ^ 2 + (0 - 0) ^ 2) := by rw [hx]; rfl
  rw [hd, hs, le_max_iff, hx]
  right
  have ht : eqBent3.disTol = 1 / 100 := rfl
  rw [ht]
  have hk : k < 3 := hk
  have hl : l < 3 := hl
  interval_cases k <;> interval_cases l <;> first | exact absurd rfl hkl | norm_num

/-- Non-vacuity: the fields satisfy the hypotheses, and have unique distances. -/
example (t : ℝ) (ht : 0 < t) : ∃ dis wDis es M, UniqueDistance eqBent3.disTol eqBent3.allDistances dis wDis ∧ eqBent3.equivalents = some es ∧
    (eqBent3.solver es dis 12 (uniformRatios 12)).factors (EqSol.flsE t (1 / 10 ^ 6)) (fun g => FLS.fls t (1 / 10 ^ 6) g true true) = some M := by
  obtain ⟨dis, wDis, -, hu, -⟩ := unique_distance_groups eqBent3.disTol (by norm_num [eqBent3]) eqBent3.allDistances (by
    intro x hx
    obtain ⟨k, hk, l, hl, rfl⟩ := (eqBent3.mem_allDistances eqBent3_identical).mp hx
    exact lt_of_lt_of_le (by norm_num [eqBent3, Sim.bent3]) (le_max_left _ _))
  obtain ⟨es, M, -, h1, h2, -⟩ := eqBent3.equivalent_total (t := t) (alpha := 1 / 10 ^ 6) (by norm_num) ht twoClusters_ok eqBent3_identical eqBent3_spaced (by norm_num [eqBent3]) hu
    (K := fun _ s r => FLS.fls t (1 / 10 ^ 6) (FLS.pairOf s r) true true) fun _ _ => rfl
  exact ⟨dis, wDis, es, M, hu, h1, h2⟩

example : (eqRow3.field 12).UniformField 150 4 (3 / 40) 12 ∧ eqRow3.Spaced (3 / 40) := ⟨eqRow3_uniform, eqRow3.uniform_spaced eqRow3_uniform eqRow3_apart⟩

end EqIn

end Verif.Sol
