import Verif.Sol.EqGroups
import Verif.Sol.DetLemmas

/-!
# Distances of pairs of equivalent boreholes (C85)
-/

noncomputable section

namespace Verif.Sol

open Bore Classical

/-- **C85** (nearest distance).  For a sorted list of distances, the position found for a distance is that of a closest distance of the list. -/
theorem nearest_closest {dis : List ℝ} (hs : dis.Pairwise (· ≤ ·)) (hne : dis ≠ []) (x : ℝ) :
    ∃ k d, nearest dis x = some k ∧ dis[k]? = some d ∧ ∀ d' ∈ dis, |x - d| ≤ |x - d'| := by
  have hpos := List.length_pos_iff.mpr hne
  obtain ⟨i, hi⟩ : ∃ i, i = dis.findIdx fun d => decide (x ≤ d) := ⟨_, rfl⟩
  have hlt : ∀ j (hj : j < dis.length), j < i → dis[j] < x := by
    intro j hj hji
    have := List.not_of_lt_findIdx (p := fun d => decide (x ≤ d)) (xs := dis) (i := j) (by rw [← hi]; exact hji)
    simpa using this
  have hmono : ∀ j k (hj : j < dis.length) (hk : k < dis.length), j ≤ k → dis[j] ≤ dis[k] := by
    intro j k hj hk hjk
    rcases Nat.eq_or_lt_of_le hjk with rfl | h
    · exact le_rfl
    · exact List.pairwise_iff_getElem.mp hs j k hj hk h
  have hile : i ≤ dis.length := by rw [hi]; exact List.findIdx_le_length
  unfold nearest
  rw [if_neg hne]
  dsimp only
  rw [← hi]
  rcases Nat.eq_or_lt_of_le hile with hil | hil
  · rw [if_pos (.inl hil)]
    have hl : i - 1 < dis.length := by omega
    refine ⟨i - 1, dis[i - 1], rfl, List.getElem?_eq_getElem hl, fun d' hd' => ?_⟩
    obtain ⟨j, hj, rfl⟩ := List.mem_iff_getElem.mp hd'
    have h1 := hlt (i - 1) hl (by omega)
    have h2 := hmono j (i - 1) hj hl (by omega)
    rw [abs_of_pos (by linarith), abs_of_pos (by linarith)]
    linarith
  · have hge : x ≤ dis[i] := by
      have := List.findIdx_getElem (p := fun d => decide (x ≤ d)) (xs := dis) (w := by rw [← hi]; exact hil)
      simp only [← hi] at this
      simpa using this
    have hmin : min i (dis.length - 1) = i := by omega
    rw [hmin, List.getD_eq_getElem _ _ hil]
    have hl : i - 1 < dis.length := by omega
    rw [List.getD_eq_getElem _ _ hl]
    by_cases hc : |x - dis[i - 1]| < |x - dis[i]|
    · rw [if_pos (.inr hc)]
      refine ⟨i - 1, dis[i - 1], rfl, List.getElem?_eq_getElem hl, fun d' hd' => ?_⟩
      obtain ⟨j, hj, rfl⟩ := List.mem_iff_getElem.mp hd'
      have hi0 : 0 < i := by
        by_contra h0
        have : i = 0 := by omega
        subst this
        exact lt_irrefl _ hc
      rcases Nat.lt_or_ge j i with h | h
      · have h1 := hlt (i - 1) hl (by omega)
        have h2 := hmono j (i - 1) hj hl (by omega)
        rw [abs_of_pos (by linarith), abs_of_pos (by linarith)]
        linarith
      · have h2 := hmono i j hil hj h
        refine hc.le.trans ?_
        rw [abs_of_nonpos (by linarith), abs_of_nonpos (by linarith)]
        linarith
    · rw [if_neg (by rintro (h | h); exacts [by omega, hc h])]
      refine ⟨i, dis[i], rfl, List.getElem?_eq_getElem hil, fun d' hd' => ?_⟩
      obtain ⟨j, hj, rfl⟩ := List.mem_iff_getElem.mp hd'
      rcases Nat.lt_or_ge j i with h | h
      · have h1 := hlt (i - 1) hl (by omega)
        have h2 := hmono j (i - 1) hj hl (by omega)
        refine (not_lt.mp hc).trans ?_
        rw [abs_of_pos (by linarith), abs_of_pos (by linarith [hlt j hj h])]
        linarith
      · have h2 := hmono i j hil hj h
        rw [abs_of_nonpos (by linarith), abs_of_nonpos (by linarith)]
        linarith

/-- **C85** (no distances).  With an empty list of distances any distance raises. -/
theorem nearest_empty (x : ℝ) : nearest [] x = none := if_pos rfl

theorem sum_count (n : ℕ) (ks : List ℕ) (h : ∀ k ∈ ks, k < n) (f : ℕ → ℝ) : ((List.range n).map fun k => (ks.count k : ℝ) * f k).sum = (ks.map f).sum := by
  induction ks with
  | nil => simp
  | cons a ks ih =>
    have e : ∀ k, (((a :: ks).count k : ℕ) : ℝ) * f k = (ks.count k : ℝ) * f k + if a = k then f k else 0 := by
      intro k
      rw [List.count_cons]
      by_cases hk : a = k
      · subst hk; simp; ring
      · simp [hk]
    simp only [e]
    rw [List.sum_map_add, ih fun k hk => h k (List.mem_cons_of_mem _ hk), List.map_cons, List.sum_cons, add_comm]
    congr 1
    have hs : ∀ m, ((List.range m).map fun k => if a = k then f k else 0).sum = if a < m then f a else 0 := by
      intro m
      induction m with
      | zero => simp
      | succ m ihm =>
        rw [List.range_succ, List.map_append, List.sum_append, ihm]
        simp only [List.map_cons, List.map_nil, List.sum_cons, List.sum_nil, add_zero]
        by_cases h1 : a = m
        · subst h1; simp
        · by_cases h2 : a < m
          · rw [if_pos h2, if_neg h1, if_pos (by omega), add_zero]
          · rw [if_neg h2, if_neg h1, if_neg (by omega), add_zero]
    rw [hs, if_pos (h a List.mem_cons_self)]

/-- The distance of the list used for a distance. -/
def rep (dis : List ℝ) (x : ℝ) : ℝ := dis.getD ((nearest dis x).getD 0) 0

theorem rep_eq {dis : List ℝ} {x d : ℝ} {k : ℕ} (h1 : nearest dis x = some k) (h2 : dis[k]? = some d) : rep dis x = d := by
  unfold rep
  rw [h1, Option.getD_some, List.getD_eq_getElem?_getD, h2, Option.getD_some]

/-- A distance of the list is used for itself. -/
theorem rep_mem {dis : List ℝ} (hs : dis.Pairwise (· ≤ ·)) {x : ℝ} (hx : x ∈ dis) : rep dis x = x := by
  obtain ⟨k, d, h1, h2, h3⟩ := nearest_closest hs (List.ne_nil_of_mem hx) x
  rw [rep_eq h1 h2]
  have := h3 x hx
  rw [sub_self, abs_zero] at this
  linarith [abs_nonpos_iff.mp this]

/-- Weights are numbers of distances: sums over the list of distances with the weights are sums over the closest distances. -/
theorem weights_spec {dis : List ℝ} (hs : dis.Pairwise (· ≤ ·)) (xs : List ℝ) (hne : xs ≠ [] → dis ≠ []) :
    ∃ w ds, weights dis xs = some w ∧ w.length = dis.length ∧ (List.Forall₂ (fun x d => d ∈ dis ∧ ∀ d' ∈ dis, |x - d| ≤ |x - d'|) xs ds ∧ List.Forall₂ (fun x d => d = rep dis x) xs ds) ∧
      ∀ f : ℝ → ℝ, ((List.zip dis (w.map fun (k : ℕ) => (k : ℝ))).map fun y => y.2 * f y.1).sum = (ds.map f).sum := by
  have hx : ∀ x ∈ xs, ∃ k d, nearest dis x = some k ∧ dis[k]? = some d ∧ ∀ d' ∈ dis, |x - d| ≤ |x - d'| := fun x hx => nearest_closest hs (hne (List.ne_nil_of_mem hx)) x
  obtain ⟨ks, hks⟩ := mapM_isSome (f := nearest dis) (l := xs) fun x h => ⟨_, (hx x h).choose_spec.choose_spec.1⟩
  have hf := EqIn.mapM_forall₂ hks
  have hlt : ∀ k ∈ ks, k < dis.length := by
    intro k hk
    obtain ⟨x, hxm, e⟩ := (mem_of_mapM hks k).mp hk
    obtain ⟨k', d, e', h1, -⟩ := hx x hxm
    obtain rfl := Option.some.inj (e.symm.trans e')
    exact (List.getElem?_eq_some_iff.mp h1).1
  refine ⟨_, ks.map fun k => dis.getD k 0, by unfold weights; rw [hks], by simp, ?_, fun f => ?_⟩
  · rw [List.forall₂_map_right_iff, List.forall₂_map_right_iff]
    have : List.Forall₂ (fun x k => x ∈ xs ∧ nearest dis x = some k) xs ks := by
      rw [List.forall₂_iff_get] at hf ⊢
      exact ⟨hf.1, fun i h1 h2 => ⟨List.get_mem _ _, hf.2 i h1 h2⟩⟩
    refine ⟨this.imp fun x k ⟨hxm, e⟩ => ?_, hf.imp fun x k e => by unfold rep; rw [e]; rfl⟩
    obtain ⟨k', d, e', h1, h2⟩ := hx x hxm
    obtain rfl := Option.some.inj (e.symm.trans e')
    obtain ⟨hl, rfl⟩ := List.getElem?_eq_some_iff.mp h1
    rw [List.getD_eq_getElem _ _ hl]
    exact ⟨List.getElem_mem hl, h2⟩
  · have hz : List.zip dis (((List.range dis.length).map fun k => ks.count k).map fun (k : ℕ) => (k : ℝ)) = (List.range dis.length).map fun k => (dis.getD k 0, (ks.count k : ℝ)) := by
      apply List.ext_getElem
      · simp
      · intro i h1 h2
        have hi : i < dis.length := by simpa using h2
        simp [List.getElem?_eq_getElem hi]
    rw [hz, List.map_map, List.map_map]
    exact sum_count dis.length ks hlt fun k => f (dis.getD k 0)

/-- The weighted sums are the sums over the distances used. -/
theorem weights_rep {dis : List ℝ} (hs : dis.Pairwise (· ≤ ·)) (xs : List ℝ) (hne : xs ≠ [] → dis ≠ []) :
    ∃ w, weights dis xs = some w ∧ w.length = dis.length ∧
      ∀ f : ℝ → ℝ, ((List.zip dis (w.map fun (k : ℕ) => (k : ℝ))).map fun y => y.2 * f y.1).sum = (xs.map fun x => f (rep dis x)).sum := by
  obtain ⟨w, ds, h1, h2, h3, h4⟩ := weights_spec hs xs hne
  refine ⟨w, h1, h2, fun f => ?_⟩
  rw [h4]
  congr 1
  have h5 : ds = xs.map (rep dis) := by
    apply List.ext_getElem
    · rw [List.length_map, h3.1.length_eq]
    · intro i hi hi'
      rw [List.getElem_map]
      have := (List.forall₂_iff_get.mp h3.2).2 i (by simpa using hi') hi
      exact this
  rw [h5, List.map_map]
  rfl

/-- **C85** (weights).  The weights of a pair of equivalent boreholes add up to the number of pairs of boreholes. -/
theorem weights_total {dis : List ℝ} (hs : dis.Pairwise (· ≤ ·)) (xs : List ℝ) (hne : xs ≠ [] → dis ≠ []) : ∃ w, weights dis xs = some w ∧ w.length = dis.length ∧ w.sum = xs.length := by
  obtain ⟨w, ds, h1, h2, h3, h4⟩ := weights_spec hs xs hne
  refine ⟨w, h1, h2, ?_⟩
  have h := h4 fun _ => 1
  simp only [mul_one, List.map_const', List.sum_replicate, nsmul_eq_mul] at h
  have e : (List.zip dis (w.map fun (k : ℕ) => (k : ℝ))).map (fun y => y.2) = w.map fun (k : ℕ) => (k : ℝ) := List.map_snd_zip (by simp [h2])
  rw [e] at h
  have e2 : (w.map fun (k : ℕ) => (k : ℝ)).sum = ((w.sum : ℕ) : ℝ) := by
    have := Nat.cast_list_sum (R := ℝ) w
    exact this.symm
  rw [e2, ← h3.1.length_eq] at h
  exact_mod_cast h

/-- When all distances are in the list, the weighted sums are the sums over the distances. -/
theorem weights_exact {dis : List ℝ} (hs : dis.Pairwise (· ≤ ·)) (xs : List ℝ) (hx : ∀ x ∈ xs, x ∈ dis) :
    ∃ w, weights dis xs = some w ∧ w.length = dis.length ∧ ∀ f : ℝ → ℝ, ((List.zip dis (w.map fun (k : ℕ) => (k : ℝ))).map fun y => y.2 * f y.1).sum = (xs.map f).sum := by
  have hne : xs ≠ [] → dis ≠ [] := by
    intro h
    obtain ⟨x, hxm⟩ := List.exists_mem_of_ne_nil xs h
    exact List.ne_nil_of_mem (hx x hxm)
  obtain ⟨w, h1, h2, h3⟩ := weights_rep hs xs hne
  refine ⟨w, h1, h2, fun f => ?_⟩
  rw [h3]
  congr 1
  exact List.map_congr_left fun x hxm => by rw [rep_mem hs (hx x hxm)]

theorem grouped_close {tol : ℝ} (ht : 0 < tol) {gs : List (List ℝ)} (hg : Grouped tol gs) (hpos : ∀ x ∈ gs.flatten, 0 < x) {x : ℝ} {g : List ℝ} (hgm : g ∈ gs) (hx : x ∈ g) :
    |x - npMean g| ≤ tol * x := by
  obtain ⟨a, t, rfl, h2⟩ := Sim.grouped_get hg hgm
  have ha : 0 < a := hpos a (List.mem_flatten.mpr ⟨_, hgm, List.mem_cons_self⟩)
  have hb : ∀ y ∈ a :: t, a ≤ y ∧ y ≤ (1 + tol) * a := by
    intro y hy
    rcases List.mem_cons.mp hy with rfl | hy
    · exact ⟨le_rfl, by nlinarith⟩
    · exact ⟨(h2 y hy).1, (h2 y hy).2.le⟩
  have hm := Sim.mean_bounds (by simp) hb
  have hxb := hb x hx
  have := mul_le_mul_of_nonneg_left hxb.1 ht.le
  rw [abs_le]
  constructor <;> nlinarith [hm.1, hm.2, hxb.1, hxb.2]

theorem means_sorted {gs : List (List ℝ)} (hne : ∀ g ∈ gs, g ≠ []) (h : gs.flatten.Pairwise (· ≤ ·)) : (gs.map npMean).Pairwise (· ≤ ·) := by
  induction gs with
  | nil => simp
  | cons g gs ih =>
    rw [List.flatten_cons, List.pairwise_append] at h
    rw [List.map_cons, List.pairwise_cons]
    refine ⟨fun m hm => ?_, ih (fun g' hg' => hne g' (List.mem_cons_of_mem _ hg')) h.2.1⟩
    obtain ⟨g', hg', rfl⟩ := List.mem_map.mp hm
    obtain ⟨c, hc⟩ : ∃ c, c = npMean g := ⟨_, rfl⟩
    rw [← hc]
    have hlow : ∀ y ∈ g', c ≤ y := by
      intro y hy
      obtain ⟨z, hz⟩ := List.exists_mem_of_ne_nil g (hne g List.mem_cons_self)
      have hub : ∀ w ∈ g, w ≤ y := fun w hw => h.2.2 w hw y (List.mem_flatten.mpr ⟨g', hg', hy⟩)
      have hp : (0 : ℝ) < g.length := by exact_mod_cast List.length_pos_iff.mpr (hne g List.mem_cons_self)
      have h2 := List.sum_le_card_nsmul g y hub
      rw [nsmul_eq_mul] at h2
      rw [hc]
      unfold npMean
      rw [div_le_iff₀ hp]
      linarith
    have hp : (0 : ℝ) < g'.length := by exact_mod_cast List.length_pos_iff.mpr (hne g' (List.mem_cons_of_mem _ hg'))
    have h1 := List.card_nsmul_le_sum g' c hlow
    rw [nsmul_eq_mul] at h1
    unfold npMean
    rw [le_div_iff₀ hp]
    linarith

/-- **C85** (tolerance).  `self.dis` (l. 404) are the unique distances of the field without the first.  They are sorted, and for a distance `x` of the field that is outside the
tolerance of the smallest distance of the field (the radius), the distance used differs from `x` by at most `disTol * x`. -/
theorem distances_close {tol : ℝ} (ht : 0 < tol) {all dis : List ℝ} {wDis : List ℕ} (hpos : ∀ x ∈ all, 0 < x) (hu : UniqueDistance tol all dis wDis) {r : ℝ} (hr : r ∈ all)
    (hrmin : ∀ x ∈ all, r ≤ x) :
    dis.tail.Pairwise (· ≤ ·) ∧ ∀ x ∈ all, (1 + tol) * r ≤ x → ∃ k d, nearest dis.tail x = some k ∧ dis.tail[k]? = some d ∧ |x - d| ≤ tol * x := by
  obtain ⟨dis', w', gs, hu', hperm, hsort, hg, hd, -, -, -⟩ := unique_distance_groups tol ht all hpos
  obtain ⟨rfl, -⟩ := unique_distance_unique tol all hu hu'
  have hne : ∀ g ∈ gs, g ≠ [] := by
    intro g hgm
    obtain ⟨a, t, rfl, -⟩ := Sim.grouped_get hg hgm
    simp
  have hs := means_sorted hne hsort
  rw [← hd] at hs
  have hst : dis.tail.Pairwise (· ≤ ·) := hs.sublist (List.tail_sublist _)
  refine ⟨hst, fun x hx hxr => ?_⟩
  obtain ⟨g, hgm, hxg⟩ := List.mem_flatten.mp (hperm.mem_iff.mpr hx)
  have hclose := grouped_close ht hg (fun y hy => hpos y (hperm.mem_iff.mp hy)) hgm hxg
  cases gs with
  | nil => simp at hgm
  | cons g0 gs =>
    have hg0 : g ∈ gs := by
      rcases List.mem_cons.mp hgm with rfl | h
      · exfalso
        obtain ⟨a, t, rfl, h2⟩ := Sim.grouped_get hg List.mem_cons_self
        have hra : r = a := by
          have h1 : a ∈ all := hperm.mem_iff.mp (List.mem_flatten.mpr ⟨_, List.mem_cons_self, List.mem_cons_self⟩)
          refine le_antisymm (hrmin a h1) ?_
          have h3 := hperm.mem_iff.mpr hr
          rw [List.flatten_cons, List.cons_append] at h3 hsort
          rcases List.mem_cons.mp h3 with rfl | h3
          · exact le_rfl
          · exact (List.pairwise_cons.mp hsort).1 r h3
        subst hra
        have hr0 := hpos r hr
        rcases List.mem_cons.mp hxg with rfl | h
        · nlinarith
        · linarith [(h2 x h).2]
      · exact h
    have hm : npMean g ∈ dis.tail := by
      rw [hd]
      exact List.mem_map_of_mem hg0
    obtain ⟨k, d, h1, h2, h3⟩ := nearest_closest hst (List.ne_nil_of_mem hm) x
    exact ⟨k, d, h1, h2, (h3 _ hm).trans hclose⟩

example : nearest [5, 10, 14] 11 = some 1 := by
  obtain ⟨k, d, h1, h2, h3⟩ := nearest_closest (dis := [5, 10, 14]) (by simp; norm_num) (by simp) 11
  rw [h1]
  have h := h3 10 (by simp)
  match k, h2 with
  | 0, h2 => simp at h2; subst h2; norm_num at h
  | 1, _ => rfl
  | 2, h2 => simp at h2; subst h2; norm_num at h

end Verif.Sol
