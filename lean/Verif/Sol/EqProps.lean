import Verif.Sol.EqDist
import Verif.Sol.SimProps
import Verif.FLS.EquivProps

/-!
# Response factors of the `Equivalent` solver (C86)
-/

noncomputable section

namespace Verif.Sol

open Bore Classical

theorem addPair_fold (ok : ℕ × ℕ → ℕ × ℕ → Prop) (ps : List (ℕ × ℕ)) (st : List (List (ℕ × ℕ))) :
    ((ps.foldl (addPair ok) st).flatten.map ord).Perm (st.flatten.map ord ++ ps.map ord) ∧ ((∀ g ∈ st, HeadedBy ok g) → ∀ g ∈ ps.foldl (addPair ok) st, HeadedBy ok g) := by
  induction ps generalizing st with
  | nil => simp
  | cons p ps ih =>
    obtain ⟨h1, h2⟩ := ih (addPair ok st p)
    rw [List.foldl_cons]
    refine ⟨h1.trans ?_, fun h => h2 (addPair_headed _ _ _ h)⟩
    rw [List.map_cons, List.append_cons]
    exact List.Perm.append_right _ (addPair_perm _ _ _)

namespace EqSol

variable (E : EqSol)

/-! ### Groups -/

theorem mem_pairs (p : ℕ × ℕ) : p ∈ E.pairs ↔ p.1 ≤ p.2 ∧ p.2 < E.n := by
  obtain ⟨i, j⟩ := p
  simp only [pairs, List.mem_flatMap, List.mem_range, List.mem_map, List.mem_range'_1, Prod.mk.injEq]
  constructor
  · rintro ⟨i', h1, j', h2, rfl, rfl⟩; omega
  · intro h; exact ⟨i, by omega, j, by omega, rfl, rfl⟩

/-- A pair or its reciprocal is in a group if and only if it is a pair of equivalent boreholes. -/
theorem pairGroups_mem (hn : 0 < E.n) (p : ℕ × ℕ) : (∃ g ∈ E.pairGroups, p ∈ g ∨ p.swap ∈ g) ↔ p.1 < E.n ∧ p.2 < E.n := by
  have key : (∃ g ∈ E.pairGroups, p ∈ g ∨ p.swap ∈ g) ↔ ord p ∈ E.pairGroups.flatten.map ord := by
    constructor
    · rintro ⟨g, hg, h | h⟩
      · exact List.mem_map.mpr ⟨p, List.mem_flatten.mpr ⟨g, hg, h⟩, rfl⟩
      · exact List.mem_map.mpr ⟨p.swap, List.mem_flatten.mpr ⟨g, hg, h⟩, ord_swap p⟩
    · intro h
      obtain ⟨q, hq, e⟩ := List.mem_map.mp h
      obtain ⟨g, hg, hqg⟩ := List.mem_flatten.mp hq
      refine ⟨g, hg, ?_⟩
      have : q = p ∨ q = p.swap := by
        obtain ⟨a, b⟩ := p
        obtain ⟨c, d⟩ := q
        simp only [ord, Prod.mk.injEq, Prod.swap] at e ⊢
        omega
      rcases this with rfl | rfl
      · exact .inl hqg
      · exact .inr hqg
  rw [key]
  unfold pairGroups
  split_ifs with hN
  · have hp := (addPair_fold E.okPair E.pairs []).1
    simp only [List.flatten_nil, List.map_nil, List.nil_append] at hp
    rw [hp.mem_iff]
    constructor
    · intro h
      obtain ⟨q, hq, e⟩ := List.mem_map.mp h
      have := (E.mem_pairs q).mp hq
      simp only [ord, Prod.mk.injEq] at e
      omega
    · intro h
      refine List.mem_map.mpr ⟨ord p, (E.mem_pairs _).mpr ?_, ?_⟩
      · simp only [ord]; omega
      · simp only [ord, Prod.mk.injEq]; omega
  · obtain ⟨a, b⟩ := p
    simp only [ord, List.flatten_cons, List.flatten_nil, List.append_nil, List.map_cons, List.map_nil, List.mem_singleton, Prod.mk.injEq]
    omega

theorem pairGroups_headed : ∀ g ∈ E.pairGroups, HeadedBy E.okPair g := by
  unfold pairGroups
  split_ifs
  · exact (addPair_fold E.okPair E.pairs []).2 (by simp)
  · intro g hg
    exact ⟨(0, 0), [], List.mem_singleton.mp hg, by simp⟩

/-- Every equivalent borehole is in exactly one group. -/
theorem selfGroups_perm (hn : 0 < E.n) : E.selfGroups.flatten.Perm (List.range E.n) := by
  unfold selfGroups
  split_ifs with hN
  · simpa using (addSelf_fold E.okSelf (List.range E.n) []).1
  · have : E.n = 1 := by omega
    rw [this]
    simp

theorem selfGroups_headed : ∀ g ∈ E.selfGroups, HeadedBy E.okSelf g := by
  unfold selfGroups
  split_ifs
  · exact (addSelf_fold E.okSelf (List.range E.n) []).2 (by simp)
  · intro g hg
    exact ⟨0, [], List.mem_singleton.mp hg, by simp⟩

/-! ### Exact similarities -/

/-- Distances between the boreholes of two equivalent boreholes (different boreholes of an equivalent borehole). -/
def between (i j : ℕ) : List ℝ := if i = j then distancesOff (E.eb i) else distances (E.eb i) (E.eb j)

/-- The similarities that the solver finds are exact, apart from the distances. -/
structure Similar : Prop where
  count : 0 < E.n
  size : ∀ i < E.n, (E.eb i).pos ≠ []
  ratios : E.rs.length = E.ns
  radius : ∀ i < E.n, (E.eb i).rb = (E.eb 0).rb
  rpos : 0 < (E.eb 0).rb
  len : ∀ i < E.n, ∀ a < E.ns, 0 < (E.sim.seg i a).H
  self : ∀ k < E.n, ∀ i < E.n, E.okSelf k i → (E.eb k).H = (E.eb i).H ∧ (E.eb k).D = (E.eb i).D
  pair : ∀ k < E.n, ∀ l < E.n, ∀ m < E.n, ∀ o < E.n, E.okPair (k, l) (m, o) →
    ((E.eb k).H = (E.eb m).H ∧ (E.eb k).D = (E.eb m).D) ∧ (E.eb l).H = (E.eb o).H ∧ (E.eb l).D = (E.eb o).D
  seg : ∀ i < E.n, ∀ j < E.n, ∀ p ∈ E.sim.segPairs i j, ∀ q ∈ E.sim.segPairs i j, cmpVertical E.tol (E.sim.seg i p.1, E.sim.seg j p.2) (E.sim.seg i q.1, E.sim.seg j q.2) →
    Sim.SameResponse (E.sim.seg i p.1, E.sim.seg j p.2) (E.sim.seg i q.1, E.sim.seg j q.2)
  sorted : E.dis.Pairwise (· ≤ ·)
  dpos : ∀ d ∈ E.dis, 0 < d
  reach : ∀ i < E.n, ∀ j < E.n, E.between i j ≠ [] → E.dis ≠ []

/-- The similarities that the solver finds are exact, and the distances of the field are in the list. -/
structure Exact : Prop extends E.Similar where
  mem : ∀ i < E.n, ∀ j < E.n, ∀ x ∈ E.between i j, x ∈ E.dis

/-- The response of segment `b` of a borehole of `j` to segment `a` of a borehole of `i` at distance `d`. -/
def resp (t alpha : ℝ) (i j a b : ℕ) (d : ℝ) : ℝ := FLS.fls t alpha (E.sim.geometry (i, j) d (a, b)) true true

theorem posDist_comm (rb : ℝ) (p q : ℝ × ℝ) : posDist rb p q = posDist rb q p := by
  unfold posDist
  congr 2
  ring

theorem posDist_self {rb : ℝ} (h : 0 ≤ rb) (p : ℝ × ℝ) : posDist rb p p = rb := by
  unfold posDist
  simp [h]

theorem posDist_pos {rb : ℝ} (h : 0 < rb) (p q : ℝ × ℝ) : 0 < posDist rb p q := lt_of_lt_of_le h (le_max_right _ _)

theorem sum_flatMap {α : Type*} (l : List α) (g : α → List ℝ) (f : ℝ → ℝ) : ((l.flatMap g).map f).sum = (l.map fun x => ((g x).map f).sum).sum := by
  induction l with
  | nil => simp
  | cons a l ih => rw [List.flatMap_cons, List.map_append, List.sum_append, ih, List.map_cons, List.sum_cons]

theorem sum_swap {α β : Type*} (l : List α) (m : List β) (f : α → β → ℝ) : (l.map fun x => (m.map fun y => f x y).sum).sum = (m.map fun y => (l.map fun x => f x y).sum).sum := by
  induction l with
  | nil => simp
  | cons a l ih =>
    rw [List.map_cons, List.sum_cons, ih, ← List.sum_map_add]
    simp

/-- The sums over the distances of a pair and of the reciprocal pair are the same. -/
theorem between_swap (hE : E.Similar) {i j : ℕ} (hi : i < E.n) (hj : j < E.n) (hij : i ≠ j) (f : ℝ → ℝ) : ((E.between i j).map f).sum = ((E.between j i).map f).sum := by
  unfold between
  rw [if_neg hij, if_neg (Ne.symm hij)]
  unfold distances
  rw [sum_flatMap, sum_flatMap, hE.radius i hi, hE.radius j hj]
  simp only [List.map_map]
  have := sum_swap (E.eb j).pos (E.eb i).pos fun q p => f (posDist (E.eb 0).rb p q)
  simp only [Function.comp_def]
  rw [this]
  simp only [posDist_comm]

theorem sameDims_of {k m : ℕ} (h : (E.eb k).H = (E.eb m).H ∧ (E.eb k).D = (E.eb m).D) : E.sim.SameDims k m := ⟨h.1, h.2, rfl⟩

/-- The response for a unique pair of segments of the first pair of a group is that of the pair. -/
theorem resp_group (hE : E.Similar) (t alpha d : ℝ) {i j m o a b : ℕ} (hm : m < E.n) (ho : o < E.n) (ha : a < E.ns) (hb : b < E.ns)
    (h1 : (E.eb i).H = (E.eb m).H ∧ (E.eb i).D = (E.eb m).D) (h2 : (E.eb j).H = (E.eb o).H ∧ (E.eb j).D = (E.eb o).D) {u : ℕ × ℕ} (hu : u ∈ E.sim.segPairs m o)
    (hc : u = (a, b) ∨ cmpVertical E.tol (E.sim.seg m a, E.sim.seg o b) (E.sim.seg m u.1, E.sim.seg o u.2)) :
    FLS.fls t alpha (E.sim.geometry (m, o) d u) true true = E.resp t alpha i j a b d := by
  obtain ⟨s1, s2⟩ := E.sim.seg_congr (E.sameDims_of h1) rfl (a := a) (show a < E.rs.length by rw [hE.ratios]; exact ha)
  obtain ⟨s3, s4⟩ := E.sim.seg_congr (E.sameDims_of h2) rfl (a := b) (show b < E.rs.length by rw [hE.ratios]; exact hb)
  have hab : (a, b) ∈ E.sim.segPairs m o := (E.sim.mem_segPairs m o _).mpr ⟨ha, hb⟩
  have hsame : Sim.SameResponse (E.sim.seg m a, E.sim.seg o b) (E.sim.seg m u.1, E.sim.seg o u.2) := by
    rcases hc with rfl | hc
    · exact ⟨rfl, rfl, rfl, .inl rfl⟩
    · exact hE.seg m hm o ho (a, b) hab u hu hc
  have hf := Sim.fls_sameResponse t alpha d hsame (hE.len m hm a ha).ne' true true
  simp only at hf
  unfold resp
  simp only [Sim.geometry, s1, s2, s3, s4]
  exact hf.symm

/-- Value of an entry before the response to the borehole itself is added. -/
def target (t alpha : ℝ) (i j a b : ℕ) : ℝ := ((E.between i j).map fun d => E.resp t alpha i j a b (rep E.dis d)).sum / E.size j

theorem target_swap (hE : E.Similar) (t alpha : ℝ) {i j a b : ℕ} (hi : i < E.n) (hj : j < E.n) (hij : i ≠ j) (ha : a < E.ns) (hb : b < E.ns) :
    E.target t alpha i j a b * E.segLen j b / E.segLen i a = E.target t alpha j i b a := by
  have h1 := hE.len i hi a ha
  have h2 := hE.len j hj b hb
  have hsi : (0 : ℝ) < E.size i := by exact_mod_cast List.length_pos_iff.mpr (hE.size i hi)
  have hsj : (0 : ℝ) < E.size j := by exact_mod_cast List.length_pos_iff.mpr (hE.size j hj)
  have hr : ∀ d, (E.sim.seg j b).H * E.resp t alpha i j a b d = (E.sim.seg i a).H * E.resp t alpha j i b a d := fun d =>
    FLS.reciprocity t alpha (E.sim.geometry (i, j) d (a, b)) h1.ne' h2.ne' true true
  have hsum : (E.sim.seg j b).H * ((E.between i j).map fun d => E.resp t alpha i j a b (rep E.dis d)).sum =
      (E.sim.seg i a).H * ((E.between j i).map fun d => E.resp t alpha j i b a (rep E.dis d)).sum := by
    rw [← E.between_swap hE hi hj hij, ← List.sum_map_mul_left, ← List.sum_map_mul_left]
    simp only [hr]
  unfold target segLen
  rw [div_eq_div_iff (by positivity) hsi.ne']
  field_simp
  linear_combination hsum

/-! ### Pairs -/

/-- The solution evaluated for pairs of equivalent boreholes. -/
def flsE (t alpha : ℝ) (g : FLS.Pair) (dw : List (ℝ × ℝ)) (N2 : ℕ) : ℝ := FLS.flsEq t alpha g dw N2 true true

theorem group_dims (hE : E.Similar) {g : List (ℕ × ℕ)} (hg : g ∈ E.pairGroups) : (g.headD (0, 0)).1 < E.n ∧ (g.headD (0, 0)).2 < E.n ∧ ∀ p ∈ g, p.1 < E.n ∧ p.2 < E.n ∧
    ((E.eb p.1).H = (E.eb (g.headD (0, 0)).1).H ∧ (E.eb p.1).D = (E.eb (g.headD (0, 0)).1).D) ∧
    (E.eb p.2).H = (E.eb (g.headD (0, 0)).2).H ∧ (E.eb p.2).D = (E.eb (g.headD (0, 0)).2).D := by
  obtain ⟨h, t, e, ht⟩ := E.pairGroups_headed g hg
  have hb : ∀ p ∈ g, p.1 < E.n ∧ p.2 < E.n := fun p hp => (E.pairGroups_mem hE.count p).mp ⟨g, hg, .inl hp⟩
  have hd : g.headD (0, 0) = h := by rw [e]; rfl
  rw [hd]
  have hh := hb h (by rw [e]; exact List.mem_cons_self)
  refine ⟨hh.1, hh.2, fun p hp => ⟨(hb p hp).1, (hb p hp).2, ?_⟩⟩
  have hp' := hp
  rw [e] at hp'
  rcases List.mem_cons.mp hp' with rfl | hp'
  · exact ⟨⟨rfl, rfl⟩, rfl, rfl⟩
  · exact hE.pair p.1 (hb p hp).1 p.2 (hb p hp).2 h.1 hh.1 h.2 hh.2 (ht p hp')

/-- The assignments of a pair have the right values, and cover the segments of the pair. -/
theorem pairWrites_spec (hE : E.Similar) (t alpha : ℝ) {g : List (ℕ × ℕ)} (hg : g ∈ E.pairGroups) {i j : ℕ} (hij : (i, j) ∈ g) :
    ∃ ws, E.pairWrites (flsE t alpha) (g.headD (0, 0)) (i, j) = some ws ∧
      (∀ w ∈ ws, ∃ i' j' a b, i' < E.n ∧ j' < E.n ∧ a < E.ns ∧ b < E.ns ∧ w = ⟨b + E.sim.first j', a + E.sim.first i', E.target t alpha i' j' a b⟩) ∧
      ∀ a < E.ns, ∀ b < E.ns, (∃ w ∈ ws, w.row = b + E.sim.first j ∧ w.col = a + E.sim.first i) ∧ ∃ w ∈ ws, w.row = a + E.sim.first i ∧ w.col = b + E.sim.first j := by
  obtain ⟨hm, ho, hmem⟩ := E.group_dims hE hg
  obtain ⟨hi, hj, hd1, hd2⟩ := hmem _ hij
  simp only at hi hj hd1 hd2
  obtain ⟨mn, hmn⟩ : ∃ mn, mn = g.headD (0, 0) := ⟨_, rfl⟩
  rw [← hmn] at hm ho hd1 hd2 ⊢
  obtain ⟨w, hw1, hw2, hw3⟩ := weights_rep hE.sorted (E.between i j) (hE.reach i hi j hj)
  obtain ⟨m1, m2, m3, -⟩ := E.sim.mapAxial_spec (cmpVertical E.tol) mn.1 mn.2
  obtain ⟨dw, hdw⟩ : ∃ dw, dw = List.zip E.dis (w.map fun (k : ℕ) => (k : ℝ)) := ⟨_, rfl⟩
  have hDW : E.disWeights i j = some dw := by
    unfold disWeights
    have : weights E.dis (if i = j then distancesOff (E.eb i) else distances (E.eb i) (E.eb j)) = some w := hw1
    rw [this, hdw]
  have hval : ∀ y ∈ List.zip (E.sim.segPairs mn.1 mn.2) (E.sim.mapAxial (cmpVertical E.tol) mn.1 mn.2).2,
      (E.sim.mapAxial (cmpVertical E.tol) mn.1 mn.2).1[y.2]?.map (fun u => (y.1, flsE t alpha (E.sim.geometry mn 0 u) dw (E.size j))) = some (y.1, E.target t alpha i j y.1.1 y.1.2) := by
    intro y hy
    obtain ⟨u, hu, hc⟩ := m2 y hy
    have hum := m3 u (List.mem_of_getElem? hu)
    have hyp := (E.sim.mem_segPairs _ _ _).mp (List.of_mem_zip hy).1
    have hup := (E.sim.mem_segPairs _ _ _).mp hum
    rw [hu, Option.map_some]
    congr 2
    have e0 : flsE t alpha (E.sim.geometry mn 0 u) dw (E.size j) = FLS.flsEq t alpha (E.sim.geometry mn 1 u) dw (E.size j) true true := rfl
    have hpos : ∀ x ∈ dw, 0 < x.1 := by
      intro x hx
      rw [hdw] at hx
      exact hE.dpos _ (List.of_mem_zip (show (x.1, x.2) ∈ _ from hx)).1
    rw [e0, FLS.equivalent_sum t alpha ⟨one_pos, (hE.len _ hm _ hup.1).le, hE.len _ ho _ hup.2⟩ dw hpos]
    have hf := hw3 fun d => FLS.fls t alpha (E.sim.geometry mn d u) true true
    rw [← hdw] at hf
    unfold target
    congr 1
    refine Eq.trans hf ?_
    congr 1
    refine List.map_congr_left fun d _ => ?_
    exact E.resp_group hE t alpha _ hm ho hyp.1 hyp.2 hd1 hd2 hum hc
  obtain ⟨l, hl⟩ := mapM_isSome fun y hy => ⟨_, hval y hy⟩
  have hlm : ∀ e ∈ l, e.1.1 < E.ns ∧ e.1.2 < E.ns ∧ e.2 = E.target t alpha i j e.1.1 e.1.2 := by
    intro e he
    obtain ⟨y, hy, ey⟩ := (mem_of_mapM hl e).mp he
    rw [hval y hy] at ey
    obtain rfl := Option.some.inj ey
    have hyp := (E.sim.mem_segPairs _ _ _).mp (List.of_mem_zip hy).1
    exact ⟨hyp.1, hyp.2, rfl⟩
  have hcov : ∀ a < E.ns, ∀ b < E.ns, ((a, b), E.target t alpha i j a b) ∈ l := by
    intro a ha b hb
    obtain ⟨k, hk⟩ := Sim.exists_mem_zip m1 ((E.sim.mem_segPairs mn.1 mn.2 (a, b)).mpr ⟨ha, hb⟩)
    exact (mem_of_mapM hl _).mpr ⟨_, hk, hval _ hk⟩
  refine ⟨_, by unfold pairWrites; simp only [hDW, hl]; rfl, fun w hw => ?_, fun a ha b hb => ⟨?_, ?_⟩⟩
  · rcases List.mem_append.mp hw with hw | hw
    · obtain ⟨e, he, rfl⟩ := List.mem_map.mp hw
      obtain ⟨h1, h2, h3⟩ := hlm e he
      exact ⟨i, j, e.1.1, e.1.2, hi, hj, h1, h2, by rw [h3]⟩
    · by_cases e0 : i = j
      · rw [if_pos e0] at hw
        simp at hw
      · rw [if_neg e0] at hw
        obtain ⟨e, he, rfl⟩ := List.mem_map.mp hw
        obtain ⟨h1, h2, h3⟩ := hlm e he
        exact ⟨j, i, e.1.2, e.1.1, hj, hi, h2, h1, by rw [h3, E.target_swap hE t alpha hi hj e0 h1 h2]⟩
  · exact ⟨_, List.mem_append_left _ (List.mem_map_of_mem (hcov a ha b hb)), rfl, rfl⟩
  · by_cases e0 : i = j
    · subst e0
      exact ⟨_, List.mem_append_left _ (List.mem_map_of_mem (hcov b hb a ha)), rfl, rfl⟩
    · rw [if_neg e0]
      exact ⟨_, List.mem_append_right _ (List.mem_map_of_mem (hcov a ha b hb)), rfl, rfl⟩

/-- The array after the pairs. -/
theorem pairs_stage (hE : E.Similar) (t alpha : ℝ) : ∃ ws, E.pairGroups.mapM (E.groupWrites (flsE t alpha)) = some ws ∧
    ∀ i < E.n, ∀ j < E.n, ∀ a < E.ns, ∀ b < E.ns, fill ws.flatten (fun _ _ => 0) (b + E.sim.first j) (a + E.sim.first i) = E.target t alpha i j a b := by
  have hgw : ∀ g ∈ E.pairGroups, ∃ vs, E.groupWrites (flsE t alpha) g = some vs ∧
      (∀ w ∈ vs, ∃ i' j' a b, i' < E.n ∧ j' < E.n ∧ a < E.ns ∧ b < E.ns ∧ w = ⟨b + E.sim.first j', a + E.sim.first i', E.target t alpha i' j' a b⟩) ∧
      ∀ i j, (i, j) ∈ g → ∀ a < E.ns, ∀ b < E.ns, (∃ w ∈ vs, w.row = b + E.sim.first j ∧ w.col = a + E.sim.first i) ∧ ∃ w ∈ vs, w.row = a + E.sim.first i ∧ w.col = b + E.sim.first j := by
    intro g hg
    obtain ⟨l, hl⟩ := mapM_isSome fun (p : ℕ × ℕ) (hp : p ∈ g) => ⟨_, (E.pairWrites_spec hE t alpha hg (i := p.1) (j := p.2) hp).choose_spec.1⟩
    refine ⟨l.flatten, by unfold groupWrites; rw [hl]; rfl, fun w hw => ?_, fun i j hij a ha b hb => ?_⟩
    · obtain ⟨vs, hvs, hw⟩ := List.mem_flatten.mp hw
      obtain ⟨p, hp, e⟩ := (mem_of_mapM hl vs).mp hvs
      obtain ⟨vs', e', h1, -⟩ := E.pairWrites_spec hE t alpha hg (i := p.1) (j := p.2) hp
      obtain rfl := Option.some.inj (e.symm.trans e')
      exact h1 w hw
    · obtain ⟨vs, e, -, h2⟩ := E.pairWrites_spec hE t alpha hg hij
      have hvs : vs ∈ l := (mem_of_mapM hl vs).mpr ⟨_, hij, e⟩
      obtain ⟨⟨w, hw, hw'⟩, w2, hw2, hw2'⟩ := h2 a ha b hb
      exact ⟨⟨w, List.mem_flatten.mpr ⟨vs, hvs, hw⟩, hw'⟩, w2, List.mem_flatten.mpr ⟨vs, hvs, hw2⟩, hw2'⟩
  obtain ⟨ws, hws⟩ := mapM_isSome fun g hg => ⟨_, (hgw g hg).choose_spec.1⟩
  refine ⟨ws, hws, fun i hi j hj a ha b hb => ?_⟩
  rcases fill_mem ws.flatten (fun _ _ => 0) (b + E.sim.first j) (a + E.sim.first i) with ⟨-, h⟩ | ⟨w, hw, e1, e2, e3⟩
  · exfalso
    obtain ⟨g, hg, hp⟩ := (E.pairGroups_mem hE.count (i, j)).mpr ⟨hi, hj⟩
    obtain ⟨vs, eg, -, h2⟩ := hgw g hg
    have hvs : vs ∈ ws := (mem_of_mapM hws vs).mpr ⟨g, hg, eg⟩
    rcases hp with hp | hp
    · obtain ⟨⟨w, hw, h'⟩, -⟩ := h2 i j hp a ha b hb
      exact h w (List.mem_flatten.mpr ⟨vs, hvs, hw⟩) h'
    · obtain ⟨-, w, hw, h'⟩ := h2 j i hp b hb a ha
      exact h w (List.mem_flatten.mpr ⟨vs, hvs, hw⟩) h'
  · rw [e3]
    obtain ⟨vs, hvs, hw⟩ := List.mem_flatten.mp hw
    obtain ⟨g, hg, eg⟩ := (mem_of_mapM hws vs).mp hvs
    obtain ⟨vs', eg', h1, -⟩ := hgw g hg
    obtain rfl := Option.some.inj (eg.symm.trans eg')
    obtain ⟨i', j', a', b', hi', hj', ha', hb', rfl⟩ := h1 w hw
    obtain ⟨rfl, rfl⟩ := E.sim.first_inj (k := i') (l := i) (show a' < E.sim.ns i' from ha') (show a < E.sim.ns i from ha) e2
    obtain ⟨rfl, rfl⟩ := E.sim.first_inj (k := j') (l := j) (show b' < E.sim.ns j' from hb') (show b < E.sim.ns j from hb) e1
    rfl

/-! ### Same borehole -/

theorem addTo_spec (M : ℕ → ℕ → ℝ) (ws : List Write) (r c : ℕ) :
    (addTo M ws r c = M r c ∧ ∀ w ∈ ws, ¬ (w.row = r ∧ w.col = c)) ∨ ∃ w ∈ ws, w.row = r ∧ w.col = c ∧ addTo M ws r c = M r c + w.value := by
  unfold addTo
  rcases fill_mem (ws.map fun w => ⟨w.row, w.col, M w.row w.col + w.value⟩) M r c with ⟨h1, h2⟩ | ⟨w, hw, h1, h2, h3⟩
  · exact .inl ⟨h1, fun w hw h => h2 _ (List.mem_map_of_mem hw) h⟩
  · obtain ⟨w', hw', rfl⟩ := List.mem_map.mp hw
    simp only at h1 h2 h3
    exact .inr ⟨w', hw', h1, h2, by rw [h3, h1, h2]⟩

/-- The added values of a borehole are in its block and right, and cover the block. -/
def SelfAdds (t alpha : ℝ) (k : ℕ) (ws : List Write) : Prop :=
  (∀ w ∈ ws, ∃ a b, a < E.ns ∧ b < E.ns ∧ w = ⟨b + E.sim.first k, a + E.sim.first k, E.resp t alpha k k a b (E.eb k).rb⟩) ∧
    ∀ a < E.ns, ∀ b < E.ns, ∃ w ∈ ws, w.row = b + E.sim.first k ∧ w.col = a + E.sim.first k

theorem addTo_fold (t alpha : ℝ) {ks : List ℕ} {adds : List (List Write)} (h : List.Forall₂ (E.SelfAdds t alpha) ks adds) (hnd : ks.Nodup) (M : ℕ → ℕ → ℝ) {i j a b : ℕ}
    (ha : a < E.ns) (hb : b < E.ns) :
    adds.foldl addTo M (b + E.sim.first j) (a + E.sim.first i) =
      M (b + E.sim.first j) (a + E.sim.first i) + if i = j ∧ j ∈ ks then E.resp t alpha i j a b (E.eb i).rb else 0 := by
  induction h generalizing M with
  | nil => simp
  | @cons k ws ks adds hk _ ih =>
    obtain ⟨hn, hnd⟩ := List.nodup_cons.mp hnd
    rw [List.foldl_cons, ih hnd]
    rcases addTo_spec M ws (b + E.sim.first j) (a + E.sim.first i) with ⟨h1, h2⟩ | ⟨w, hw, h1, h2, h3⟩
    · rw [h1]
      congr 1
      have hk' : ¬ (i = j ∧ j = k) := by
        rintro ⟨rfl, rfl⟩
        obtain ⟨w, hw, h⟩ := hk.2 a ha b hb
        exact h2 w hw h
      by_cases hc : i = j ∧ j ∈ ks
      · rw [if_pos hc, if_pos ⟨hc.1, List.mem_cons_of_mem _ hc.2⟩]
      · rw [if_neg hc, if_neg]
        rintro ⟨e, hm⟩
        rcases List.mem_cons.mp hm with e' | hm
        · exact hk' ⟨e, e'⟩
        · exact hc ⟨e, hm⟩
    · obtain ⟨a', b', ha', hb', rfl⟩ := hk.1 w hw
      obtain ⟨rfl, rfl⟩ := E.sim.first_inj (k := k) (l := i) (show a' < E.sim.ns k from ha') (show a < E.sim.ns i from ha) h2
      obtain ⟨rfl, rfl⟩ := E.sim.first_inj (k := k) (l := j) (show b' < E.sim.ns k from hb') (show b < E.sim.ns j from hb) h1
      rw [h3, if_neg (fun h => hn h.2), if_pos ⟨rfl, List.mem_cons_self⟩, add_zero]

theorem selfAdds_spec (hE : E.Similar) (t alpha : ℝ) {i k : ℕ} (hi : i < E.n) (hk : k < E.n) (hd : (E.eb k).H = (E.eb i).H ∧ (E.eb k).D = (E.eb i).D) :
    ∃ ws, E.selfAdds (fun g => FLS.fls t alpha g true true) i k = some ws ∧ E.SelfAdds t alpha k ws := by
  obtain ⟨m1, m2, m3, -⟩ := E.sim.mapAxial_spec (cmpVertical E.tol) i i
  have hval : ∀ y ∈ List.zip (E.sim.segPairs i i) (E.sim.mapAxial (cmpVertical E.tol) i i).2,
      (E.sim.mapAxial (cmpVertical E.tol) i i).1[y.2]?.map (fun u => (⟨y.1.2 + E.sim.first k, y.1.1 + E.sim.first k, FLS.fls t alpha (E.sim.geometry (i, i) (E.eb i).rb u) true true⟩ : Write)) =
        some ⟨y.1.2 + E.sim.first k, y.1.1 + E.sim.first k, E.resp t alpha k k y.1.1 y.1.2 (E.eb k).rb⟩ := by
    intro y hy
    obtain ⟨u, hu, hc⟩ := m2 y hy
    have hum := m3 u (List.mem_of_getElem? hu)
    have hyp := (E.sim.mem_segPairs _ _ _).mp (List.of_mem_zip hy).1
    rw [hu, Option.map_some, E.resp_group hE t alpha _ hi hi hyp.1 hyp.2 hd hd hum hc, hE.radius i hi, hE.radius k hk]
  obtain ⟨l, hl⟩ := mapM_isSome fun y hy => ⟨_, hval y hy⟩
  refine ⟨l, hl, fun w hw => ?_, fun a ha b hb => ?_⟩
  · obtain ⟨y, hy, e⟩ := (mem_of_mapM hl w).mp hw
    rw [hval y hy] at e
    obtain rfl := Option.some.inj e
    have hyp := (E.sim.mem_segPairs _ _ _).mp (List.of_mem_zip hy).1
    exact ⟨y.1.1, y.1.2, hyp.1, hyp.2, rfl⟩
  · obtain ⟨kk, hkk⟩ := Sim.exists_mem_zip m1 ((E.sim.mem_segPairs i i (a, b)).mpr ⟨ha, hb⟩)
    exact ⟨_, (mem_of_mapM hl _).mpr ⟨_, hkk, hval _ hkk⟩, rfl, rfl⟩

theorem self_stage (hE : E.Similar) (t alpha : ℝ) : ∃ adds ks,
    ((E.selfGroups.flatMap fun g => g.map fun k => (g.headD 0, k)).mapM fun x => E.selfAdds (fun g => FLS.fls t alpha g true true) x.1 x.2) = some adds ∧
      List.Forall₂ (E.SelfAdds t alpha) ks adds ∧ ks.Perm (List.range E.n) := by
  have hb : ∀ x ∈ E.selfGroups.flatMap fun g => g.map fun k => (g.headD 0, k), ∃ ws, E.selfAdds (fun g => FLS.fls t alpha g true true) x.1 x.2 = some ws ∧ E.SelfAdds t alpha x.2 ws := by
    intro x hx
    obtain ⟨g, hg, hx⟩ := List.mem_flatMap.mp hx
    obtain ⟨k, hk, rfl⟩ := List.mem_map.mp hx
    obtain ⟨h, tl, e, ht⟩ := E.selfGroups_headed g hg
    have hlt : ∀ m ∈ g, m < E.n := fun m hm => List.mem_range.mp ((E.selfGroups_perm hE.count).mem_iff.mp (List.mem_flatten.mpr ⟨g, hg, hm⟩))
    have hh : h < E.n := hlt h (by rw [e]; exact List.mem_cons_self)
    have hd : g.headD 0 = h := by rw [e]; rfl
    simp only [hd]
    refine E.selfAdds_spec hE t alpha hh (hlt k hk) ?_
    rw [e] at hk
    rcases List.mem_cons.mp hk with rfl | hk'
    · exact ⟨rfl, rfl⟩
    · exact hE.self k (hlt k (by rw [e]; exact List.mem_cons_of_mem _ hk')) h hh (ht k hk')
  obtain ⟨adds, hadds⟩ := mapM_isSome fun x hx => ⟨_, (hb x hx).choose_spec.1⟩
  refine ⟨adds, (E.selfGroups.flatMap fun g => g.map fun k => (g.headD 0, k)).map Prod.snd, hadds, ?_, ?_⟩
  · rw [List.forall₂_map_left_iff]
    have hf := EqIn.mapM_forall₂ hadds
    rw [List.forall₂_iff_get] at hf ⊢
    refine ⟨hf.1, fun i h1 h2 => ?_⟩
    obtain ⟨ws, e, h⟩ := hb _ (List.get_mem _ ⟨i, h1⟩)
    rw [hf.2 i h1 h2] at e
    rw [Option.some.inj e]
    exact h
  · have : (E.selfGroups.flatMap fun g => g.map fun k => (g.headD 0, k)).map Prod.snd = E.selfGroups.flatten := by
      rw [List.map_flatMap, List.flatten_eq_flatMap]
      simp [Function.comp_def]
    rw [this]
    exact E.selfGroups_perm hE.count

/-! ### Sum over the pairs of boreholes -/

theorem sum_off (f : ℝ × ℝ → ℝ × ℝ → ℝ) (l : List (ℝ × ℝ)) :
    (l.map fun q => (l.map fun p => f p q).sum).sum =
      (l.zipIdx.map fun q => ((l.zipIdx.filter fun p => p.2 ≠ q.2).map fun p => f p.1 q.1).sum).sum + (l.map fun p => f p p).sum := by
  have hz : ∀ g : ℝ × ℝ → ℝ, (l.map g).sum = (l.zipIdx.map fun q => g q.1).sum := by
    intro g
    conv_lhs => rw [← List.zipIdx_map_fst 0 l]
    rw [List.map_map]
    rfl
  rw [hz fun q => (l.map fun p => f p q).sum, hz fun p => f p p, ← List.sum_map_add]
  congr 1
  apply List.map_congr_left
  intro q hq
  rw [hz fun p => f p q.1]
  have hsplit : ∀ (m : List ((ℝ × ℝ) × ℕ)), (m.map fun p => f p.1 q.1).sum =
      ((m.filter fun p => p.2 ≠ q.2).map fun p => f p.1 q.1).sum + ((m.filter fun p => p.2 = q.2).map fun p => f p.1 q.1).sum := by
    intro m
    induction m with
    | nil => simp
    | cons a m ih =>
      rw [List.filter_cons, List.filter_cons, List.map_cons, List.sum_cons, ih]
      by_cases h : a.2 = q.2
      · simp [h]; ring
      · simp [h]; ring
  rw [hsplit]
  congr 1
  have : (l.zipIdx.filter fun p => p.2 = q.2) = [q] := by
    obtain ⟨x, i⟩ := q
    have hi := List.mk_mem_zipIdx_iff_getElem?.mp hq
    have hgen : ∀ (l : List (ℝ × ℝ)) (k : ℕ), i ≥ k → l[i - k]? = some x → ((l.zipIdx k).filter fun p => p.2 = i) = [(x, i)] := by
      intro l
      induction l with
      | nil => simp
      | cons a l ih =>
        intro k hk hx
        rw [List.zipIdx_cons, List.filter_cons]
        by_cases e : k = i
        · subst e
          simp only [Nat.sub_self, List.getElem?_cons_zero, Option.some.injEq] at hx
          subst hx
          have hnil : ((l.zipIdx (k + 1)).filter fun p => p.2 = k) = [] := by
            rw [List.filter_eq_nil_iff]
            intro p hp
            have := (List.mem_zipIdx (show (p.1, p.2) ∈ _ from hp)).1
            simp; omega
          rw [hnil]
          simp
        · have hk' : i - k = (i - (k + 1)) + 1 := by omega
          rw [hk', List.getElem?_cons_succ] at hx
          rw [ih (k + 1) (by omega) hx]
          simp [e]
    exact hgen l 0 (Nat.zero_le _) hi
  rw [this]
  simp

/-- The sum over the distances of a pair, and the response at the radius for the same borehole, is the sum over the pairs of boreholes. -/
theorem sum_between (f : ℝ → ℝ) {i : ℕ} (hr : 0 ≤ (E.eb i).rb) (j : ℕ) :
    ((E.eb j).pos.map fun q => ((E.eb i).pos.map fun p => f (posDist (E.eb i).rb p q)).sum).sum =
      ((E.between i j).map f).sum + if i = j then (E.eb i).pos.length * f (E.eb i).rb else 0 := by
  by_cases hij : i = j
  · subst hij
    rw [if_pos rfl, sum_off]
    have hd : ((E.eb i).pos.map fun p => f (posDist (E.eb i).rb p p)).sum = (E.eb i).pos.length * f (E.eb i).rb := by
      simp only [posDist_self hr]
      rw [List.map_const', List.sum_replicate, nsmul_eq_mul]
    rw [hd]
    congr 1
    unfold between distancesOff
    rw [if_pos rfl, sum_flatMap]
    simp only [List.map_map, Function.comp_def]
  · rw [if_neg hij, add_zero]
    unfold between distances
    rw [if_neg hij, sum_flatMap]
    simp only [List.map_map, Function.comp_def]

/-- Number of distances of a pair. -/
theorem between_length (i j : ℕ) : ((E.between i j).length : ℝ) = (E.eb j).pos.length * ((E.eb i).pos.length - if i = j then 1 else 0) := by
  obtain ⟨E', hE'⟩ : ∃ E' : EqSol, E' = { E with eb := fun k => { E.eb k with rb := 0 } } := ⟨_, rfl⟩
  have hpos : ∀ k, (E'.eb k).pos = (E.eb k).pos := fun k => by rw [hE']
  have hlen : (E'.between i j).length = (E.between i j).length := by
    rw [hE']
    unfold between distances distancesOff
    split_ifs <;> simp
  have h := E'.sum_between (fun _ => 1) (i := i) (by rw [hE']) j
  rw [hpos, hpos, List.map_const', List.map_const', List.map_const', List.sum_replicate, List.sum_replicate, List.sum_replicate, hlen] at h
  simp only [nsmul_eq_mul, mul_one] at h
  split_ifs with hij
  · subst hij
    rw [if_pos rfl] at h
    linarith
  · rw [if_neg hij] at h
    linarith

/-- Every response factor of the `Equivalent` solver is the sum of the finite line source solutions at the distances used for the pairs of boreholes, over the number of receiving
boreholes, and the solution at the radius for the same equivalent borehole. -/
theorem equivalent_near (hE : E.Similar) (t alpha : ℝ) :
    ∃ M, E.factors (flsE t alpha) (fun g => FLS.fls t alpha g true true) = some M ∧
      ∀ i < E.n, ∀ j < E.n, ∀ a < E.ns, ∀ b < E.ns, M (b + E.sim.first j) (a + E.sim.first i) =
        ((E.between i j).map fun d => E.resp t alpha i j a b (rep E.dis d)).sum / (E.eb j).pos.length + if i = j then E.resp t alpha i j a b (E.eb i).rb else 0 := by
  obtain ⟨ws, hws, h1⟩ := E.pairs_stage hE t alpha
  obtain ⟨adds, ks, hadds, h2, h3⟩ := E.self_stage hE t alpha
  refine ⟨_, by unfold factors; rw [hws, hadds], fun i hi j hj a ha b hb => ?_⟩
  rw [E.addTo_fold t alpha h2 (h3.nodup_iff.mpr List.nodup_range) _ ha hb, h1 i hi j hj a ha b hb]
  have hm : j ∈ ks := h3.mem_iff.mpr (List.mem_range.mpr hj)
  unfold target size
  simp only [hm, and_true]

/-- The mean over the boreholes of the receiving equivalent borehole `j` of the sum of the finite line source solutions of all boreholes of the emitting equivalent borehole `i`, from
segment `a` to segment `b`, at the distances of the boreholes (at least the radius). -/
def clusterMean (t alpha : ℝ) (i j a b : ℕ) : ℝ :=
  ((E.eb j).pos.map fun q => ((E.eb i).pos.map fun p =>
    FLS.fls t alpha ⟨posDist (E.eb i).rb p q, (E.sim.seg i a).H, (E.sim.seg i a).D, (E.sim.seg j b).H, (E.sim.seg j b).D⟩ true true).sum).sum / (E.eb j).pos.length

theorem clusterMean_eq (hE : E.Similar) (t alpha : ℝ) {i j : ℕ} (hi : i < E.n) (hj : j < E.n) (a b : ℕ) : E.clusterMean t alpha i j a b =
    ((E.between i j).map fun d => E.resp t alpha i j a b d).sum / (E.eb j).pos.length + if i = j then E.resp t alpha i j a b (E.eb i).rb else 0 := by
  have hsj : (0 : ℝ) < (E.eb j).pos.length := by exact_mod_cast List.length_pos_iff.mpr (hE.size j hj)
  change ((E.eb j).pos.map fun q => ((E.eb i).pos.map fun p => E.resp t alpha i j a b (posDist (E.eb i).rb p q)).sum).sum / _ = _
  rw [E.sum_between (fun d => E.resp t alpha i j a b d) (by rw [hE.radius i hi]; exact hE.rpos.le)]
  by_cases hij : i = j
  · subst hij
    rw [if_pos rfl, if_pos rfl]
    field_simp
  · rw [if_neg hij, if_neg hij, add_zero, add_zero]

/-- **C86.**  When the similarities found are exact and the distances are in the list, every response factor of the `Equivalent` solver is the mean over the boreholes of the receiving
equivalent borehole of the sum of the finite line source solutions of all boreholes of the emitting equivalent borehole, at the distance of the two boreholes (at least the radius). -/
theorem equivalent_exact (hE : E.Exact) (t alpha : ℝ) :
    ∃ M, E.factors (flsE t alpha) (fun g => FLS.fls t alpha g true true) = some M ∧
      ∀ i < E.n, ∀ j < E.n, ∀ a < E.ns, ∀ b < E.ns, M (b + E.sim.first j) (a + E.sim.first i) =
        ((E.eb j).pos.map fun q => ((E.eb i).pos.map fun p =>
          FLS.fls t alpha ⟨posDist (E.eb i).rb p q, (E.sim.seg i a).H, (E.sim.seg i a).D, (E.sim.seg j b).H, (E.sim.seg j b).D⟩ true true).sum).sum / (E.eb j).pos.length := by
  obtain ⟨M, hM, h⟩ := E.equivalent_near hE.toSimilar t alpha
  refine ⟨M, hM, fun i hi j hj a ha b hb => ?_⟩
  rw [h i hi j hj a ha b hb]
  refine Eq.trans ?_ (E.clusterMean_eq hE.toSimilar t alpha hi hj a b).symm
  congr 3
  exact List.map_congr_left fun d hd => by rw [rep_mem hE.sorted (hE.mem i hi j hj d hd)]

/-- **C86** (error).  When the similarities found are exact apart from the distances, and the distances used differ from the distances by at most the fraction `tol`, every response
factor differs from that mean by at most `-log (1 - tol)` times the number of emitting boreholes other than the receiver, at all positive times. -/
theorem equivalent_error {t alpha tol : ℝ} (hα : 0 < alpha) (ht : 0 < t) (hE : E.Similar) (hD : ∀ i < E.n, ∀ a < E.ns, 0 ≤ (E.sim.seg i a).D) (h0 : 0 ≤ tol) (h1 : tol < 1)
    (hnear : ∀ i < E.n, ∀ j < E.n, ∀ d ∈ E.between i j, 0 < d ∧ |d - rep E.dis d| ≤ tol * d) :
    ∃ M, E.factors (flsE t alpha) (fun g => FLS.fls t alpha g true true) = some M ∧
      ∀ i < E.n, ∀ j < E.n, ∀ a < E.ns, ∀ b < E.ns, |M (b + E.sim.first j) (a + E.sim.first i) - E.clusterMean t alpha i j a b| ≤
        ((E.eb i).pos.length - if i = j then 1 else 0) * Real.log (1 / (1 - tol)) := by
  obtain ⟨M, hM, h⟩ := E.equivalent_near hE t alpha
  refine ⟨M, hM, fun i hi j hj a ha b hb => ?_⟩
  have hsj : (0 : ℝ) < (E.eb j).pos.length := by exact_mod_cast List.length_pos_iff.mpr (hE.size j hj)
  rw [h i hi j hj a ha b hb, E.clusterMean_eq hE t alpha hi hj, add_sub_add_right_eq_sub, ← sub_div, abs_div, abs_of_pos hsj, div_le_iff₀ hsj]
  have hg : (E.sim.geometry (i, j) 1 (a, b)).Ok := ⟨one_pos, (hE.len i hi a ha).le, hE.len j hj b hb⟩
  have hlist : ∀ l : List ℝ, (∀ d ∈ l, 0 < d ∧ |d - rep E.dis d| ≤ tol * d) →
      |(l.map fun d => E.resp t alpha i j a b (rep E.dis d)).sum - (l.map fun d => E.resp t alpha i j a b d).sum| ≤ l.length * Real.log (1 / (1 - tol)) := by
    intro l
    induction l with
    | nil => simp
    | cons d l ih =>
      intro hl
      have hd := hl d List.mem_cons_self
      have hc := FLS.close_log hα hg (hE.len i hi a ha) true (fun _ => ⟨hD i hi a ha, hD j hj b hb⟩) ht hd.1 h0 h1 hd.2
      rw [abs_sub_comm] at hc
      change |E.resp t alpha i j a b (rep E.dis d) - E.resp t alpha i j a b d| ≤ _ at hc
      have hr := ih fun e he => hl e (List.mem_cons_of_mem _ he)
      rw [List.map_cons, List.map_cons, List.sum_cons, List.sum_cons, List.length_cons, add_sub_add_comm]
      push_cast
      refine (abs_add_le _ _).trans ?_
      linarith
  have hfin := hlist (E.between i j) (hnear i hi j hj)
  rw [E.between_length] at hfin
  exact hfin.trans (le_of_eq (by ring))

end EqSol

end Verif.Sol
