import Verif.Sol.EqModel
import Verif.Sol.SimLemmas

/-!
# The equivalent boreholes (C25)
-/

noncomputable section

namespace Verif.Sol

open Bore Classical

theorem flatMap_single {α : Type*} (n k : ℕ) (a : α) (h : k < n) : ((List.range n).flatMap fun i => if k = i then [a] else []) = [a] := by
  induction n with
  | zero => omega
  | succ n ih =>
    rw [List.range_succ, List.flatMap_append]
    by_cases e : k = n
    · subst e
      have : ((List.range k).flatMap fun i => if k = i then [a] else []) = [] := by
        rw [List.flatMap_eq_nil_iff]
        intro i hi
        rw [if_neg (by have := List.mem_range.mp hi; omega)]
      rw [this]
      simp
    · rw [ih (by omega)]
      simp [e]

/-- Splitting a labelled list by labels. -/
theorem labels_perm {α : Type*} (n : ℕ) (l : List (α × ℕ)) (h : ∀ x ∈ l, x.2 < n) :
    ((List.range n).flatMap fun i => (l.filter fun x => x.2 = i).map fun x => x.1).Perm (l.map fun x => x.1) := by
  induction l with
  | nil => simp
  | cons x l ih =>
    have e : ((List.range n).flatMap fun i => ((x :: l).filter fun x => x.2 = i).map fun x => x.1) =
        (List.range n).flatMap fun i => (if x.2 = i then [x.1] else []) ++ (l.filter fun x => x.2 = i).map fun x => x.1 := by
      congr 1
      funext i
      rw [List.filter_cons]
      by_cases hx : x.2 = i <;> simp [hx]
    rw [e]
    refine (List.flatMap_append_perm _ _ _).symm.trans ?_
    rw [flatMap_single n x.2 x.1 (h x List.mem_cons_self), List.map_cons]
    exact (ih fun y hy => h y (List.mem_cons_of_mem _ hy)).cons x.1

theorem addSelf_fold (ok : ℕ → ℕ → Prop) (is : List ℕ) (st : List (List ℕ)) :
    (is.foldl (addSelf ok) st).flatten.Perm (st.flatten ++ is) ∧ ((∀ g ∈ st, HeadedBy ok g) → ∀ g ∈ is.foldl (addSelf ok) st, HeadedBy ok g) := by
  induction is generalizing st with
  | nil => simp
  | cons i is ih =>
    obtain ⟨h1, h2⟩ := ih (addSelf ok st i)
    rw [List.foldl_cons]
    refine ⟨h1.trans ?_, fun h => h2 (addSelf_headed _ _ _ h)⟩
    rw [List.append_cons]
    exact List.Perm.append_right _ (addSelf_perm _ _ _)

namespace EqIn

variable (E : EqIn)

theorem unique_perm : E.uniqueBoreholes.flatten.Perm (List.range E.N) := by
  unfold uniqueBoreholes
  simpa using (addSelf_fold (fun i m => cmpDims E.tol (E.bore i) (E.bore m)) (List.range E.N) []).1

theorem unique_headed : ∀ g ∈ E.uniqueBoreholes, HeadedBy (fun i m => cmpDims E.tol (E.bore i) (E.bore m)) g :=
  (addSelf_fold (fun i m => cmpDims E.tol (E.bore i) (E.bore m)) (List.range E.N) []).2 (by simp)

/-- What holds of `clusters` and `nEqBoreholes` after the groups `gs`. -/
structure Labels (gs : List (List ℕ)) (st : List ℕ × ℕ) : Prop where
  len : st.1.length = gs.flatten.length
  lt : ∀ l ∈ st.1, l < st.2
  surj : ∀ l < st.2, l ∈ st.1
  same : ∀ x ∈ List.zip gs.flatten st.1, ∀ y ∈ List.zip gs.flatten st.1, x.2 = y.2 → ∃ g ∈ gs, x.1 ∈ g ∧ y.1 ∈ g

theorem labels_snoc {gs : List (List ℕ)} {st : List ℕ × ℕ} (h : Labels gs st) {g ls : List ℕ} {n : ℕ} (hl : ls.length = g.length) (hlt : ∀ l ∈ ls, l < n) (hs : ∀ l < n, l ∈ ls) :
    Labels (gs ++ [g]) (st.1 ++ ls.map (· + st.2), st.2 + n) := by
  have hf : (gs ++ [g]).flatten = gs.flatten ++ g := by simp
  have hz : List.zip (gs ++ [g]).flatten (st.1 ++ ls.map (· + st.2)) = List.zip gs.flatten st.1 ++ List.zip g (ls.map (· + st.2)) := by
    rw [hf, List.zip_append h.len.symm]
  refine ⟨by rw [hf, List.length_append, List.length_append, h.len, List.length_map, hl], ?_, ?_, ?_⟩
  · intro l hm
    rcases List.mem_append.mp hm with hm | hm
    · have := h.lt l hm
      dsimp only; omega
    · obtain ⟨l', hl', rfl⟩ := List.mem_map.mp hm
      have := hlt l' hl'
      dsimp only; omega
  · intro l hm
    dsimp only at hm ⊢
    rcases Nat.lt_or_ge l st.2 with h' | h'
    · exact List.mem_append_left _ (h.surj l h')
    · exact List.mem_append_right _ (List.mem_map.mpr ⟨l - st.2, hs _ (by omega), by omega⟩)
  · dsimp only
    rw [hz]
    have hold : ∀ x ∈ List.zip gs.flatten st.1, x.2 < st.2 := fun x hx => h.lt _ (List.of_mem_zip hx).2
    have hnew : ∀ x ∈ List.zip g (ls.map (· + st.2)), st.2 ≤ x.2 ∧ x.1 ∈ g := by
      intro x hx
      obtain ⟨h1, h2⟩ := List.of_mem_zip (show (x.1, x.2) ∈ _ from hx)
      obtain ⟨l', -, e⟩ := List.mem_map.mp h2
      exact ⟨by omega, h1⟩
    intro x hx y hy e
    rcases List.mem_append.mp hx with hx | hx <;> rcases List.mem_append.mp hy with hy | hy
    · obtain ⟨g', hg', h'⟩ := h.same x hx y hy e
      exact ⟨g', List.mem_append_left _ hg', h'⟩
    · have := hold x hx; have := (hnew y hy).1; omega
    · have := hold y hy; have := (hnew x hx).1; omega
    · exact ⟨g, List.mem_append_right _ (List.mem_singleton.mpr rfl), (hnew x hx).2, (hnew y hy).2⟩

theorem labels_step (hc : CutOk E.cut) {gs : List (List ℕ)} {st : List ℕ × ℕ} (h : Labels gs st) {g : List ℕ} (hg : g ≠ []) : Labels (gs ++ [g]) (E.clusterStep st g) := by
  unfold clusterStep
  dsimp only
  split_ifs with h1
  · have hlen : (g.map E.temp).length = g.length := List.length_map _
    exact labels_snoc h (by rw [hc.len _ (by omega), hlen]) (hc.lt _ (by omega)) (hc.surj _ (by omega))
  · have : g.length = 1 := by have := List.length_pos_iff.mpr hg; omega
    have := labels_snoc h (g := g) (ls := [0]) (n := 1) (by simp [this]) (by simp) (by intro l hl; simp; omega)
    simpa using this

theorem labels_fold (hc : CutOk E.cut) (qs gs : List (List ℕ)) (st : List ℕ × ℕ) (h : Labels gs st) (hq : ∀ g ∈ qs, g ≠ []) : Labels (gs ++ qs) (qs.foldl E.clusterStep st) := by
  induction qs generalizing gs st with
  | nil => simpa using h
  | cons q qs ih =>
    rw [List.foldl_cons, List.append_cons]
    exact ih _ _ (E.labels_step hc h (hq q List.mem_cons_self)) fun g hg => hq g (List.mem_cons_of_mem _ hg)

theorem labels_clusters (hc : CutOk E.cut) (hN : 1 < E.N) : Labels E.uniqueBoreholes E.clusters := by
  unfold clusters
  rw [if_pos hN]
  refine E.labels_fold hc E.uniqueBoreholes [] ([], 0) ⟨rfl, by simp, by simp, by simp⟩ fun g hg => ?_
  obtain ⟨a, t, rfl, -⟩ := E.unique_headed g hg
  simp

theorem clusters_spec (hc : CutOk E.cut) : E.clusters.1.length = E.N ∧ (∀ l ∈ E.clusters.1, l < E.clusters.2) ∧ ∀ l < E.clusters.2, l ∈ E.clusters.1 := by
  by_cases hN : 1 < E.N
  · have h := E.labels_clusters hc hN
    exact ⟨by rw [h.len, E.unique_perm.length_eq, List.length_range], h.lt, h.surj⟩
  · unfold clusters
    rw [if_neg hN]
    simp

theorem zip_map_fst (hc : CutOk E.cut) : (List.zip ((List.range E.N).map E.bore) E.clusters.1).map (fun x => x.1) = (List.range E.N).map E.bore := by
  have := List.map_fst_zip (l₁ := (List.range E.N).map E.bore) (l₂ := E.clusters.1) (by simp [(E.clusters_spec hc).1])
  exact this

theorem members_ne (hc : CutOk E.cut) {i : ℕ} (hi : i < E.clusters.2) : E.members i ≠ [] := by
  obtain ⟨h1, -, h3⟩ := E.clusters_spec hc
  obtain ⟨k, hk, e⟩ := List.mem_iff_getElem.mp (h3 i hi)
  have : (E.bore k, i) ∈ List.zip ((List.range E.N).map E.bore) E.clusters.1 :=
    List.mem_iff_getElem.mpr ⟨k, by simp; omega, by simp [e]⟩
  intro h0
  have hm : E.bore k ∈ E.members i := List.mem_map.mpr ⟨(E.bore k, i), List.mem_filter.mpr ⟨this, by simp⟩, rfl⟩
  rw [h0] at hm
  simp at hm

theorem members_perm (hc : CutOk E.cut) : ((List.range E.clusters.2).map E.members).flatten.Perm ((List.range E.N).map E.bore) := by
  have h := labels_perm E.clusters.2 (List.zip ((List.range E.N).map E.bore) E.clusters.1) fun x hx => (E.clusters_spec hc).2.1 _ (List.of_mem_zip hx).2
  rw [E.zip_map_fst hc] at h
  rw [← List.flatMap_def]
  exact h

/-- An equivalent borehole of a list of boreholes: the positions are those of the boreholes, the dimensions those of the first. -/
def Represents (m : List Borehole) (e : EqBore) : Prop :=
  e.pos = m.map (fun b => (b.x, b.y)) ∧ ∃ b t, m = b :: t ∧ e.H = b.H ∧ e.D = b.D ∧ e.rb = b.rb

theorem eqOf_represents {m : List Borehole} {e : EqBore} (h : eqOf m = some e) : Represents m e := by
  cases m with
  | nil => simp [eqOf] at h
  | cons b t =>
    obtain rfl := Option.some.inj h
    exact ⟨rfl, b, t, rfl, rfl, rfl, rfl⟩

theorem mapM_forall₂ {α β : Type*} {f : α → Option β} {l : List α} {m : List β} (h : l.mapM f = some m) : List.Forall₂ (fun a b => f a = some b) l m := by
  induction l generalizing m with
  | nil =>
    have : m = [] := by simpa using h.symm
    subst this
    exact .nil
  | cons a l ih =>
    rw [List.mapM_cons] at h
    cases ha : f a with
    | none => rw [ha] at h; simp at h
    | some b =>
      cases hl : l.mapM f with
      | none => rw [ha, hl] at h; simp at h
      | some m' =>
        rw [ha, hl] at h
        have : m = b :: m' := by simpa using h.symm
        subst this
        exact .cons ha (ih hl)

theorem equivalents_some (hc : CutOk E.cut) (hN : 0 < E.N) : ∃ es, E.equivalents = some es ∧ List.Forall₂ (fun i e => eqOf (E.members i) = some e) (List.range E.clusters.2) es := by
  have hf : ∃ e, eqOf ((List.range E.N).map E.bore) = some e := by
    obtain ⟨n, hn⟩ : ∃ n, E.N = n + 1 := ⟨E.N - 1, by omega⟩
    rw [hn, List.range_succ_eq_map]
    exact ⟨_, rfl⟩
  obtain ⟨e, he⟩ := hf
  have : ∃ es, ((List.range E.clusters.2).mapM fun i => eqOf (E.members i)) = some es := by
    apply mapM_isSome
    intro i hi
    have := E.members_ne hc (List.mem_range.mp hi)
    cases hm : E.members i with
    | nil => exact absurd hm this
    | cons b t => exact ⟨_, rfl⟩
  obtain ⟨es, hes⟩ := this
  exact ⟨es, by unfold equivalents; rw [he]; exact hes, mapM_forall₂ hes⟩

/-! ### Theorems -/

/-- **C25** (partition).  For a clustering that labels every borehole, no exception is raised and every borehole of the field belongs to exactly one equivalent borehole.  Equivalent
boreholes have at least one borehole, at their positions, and the dimensions of the first. -/
theorem equivalents_partition (hc : CutOk E.cut) (hN : 0 < E.N) :
    ∃ es ms, E.equivalents = some es ∧ ms.flatten.Perm ((List.range E.N).map E.bore) ∧ List.Forall₂ Represents ms es := by
  obtain ⟨es, h1, h2⟩ := E.equivalents_some hc hN
  exact ⟨es, (List.range E.clusters.2).map E.members, h1, E.members_perm hc, by rw [List.forall₂_map_left_iff]; exact h2.imp fun _ _ h => eqOf_represents h⟩

/-- **C25** (empty field).  An empty field raises. -/
theorem equivalents_empty (hN : E.N = 0) : E.equivalents = none := by
  unfold equivalents
  rw [hN]
  rfl

theorem sum_sizes {ms : List (List Borehole)} {es : List EqBore} (h : List.Forall₂ Represents ms es) : (es.map fun e => e.pos.length).sum = ms.flatten.length := by
  induction h with
  | nil => rfl
  | cons h _ ih => rw [List.map_cons, List.sum_cons, ih, List.flatten_cons, List.length_append, h.1, List.length_map]

/-- **C25** (sizes).  The numbers of boreholes of the equivalent boreholes add up to the number of boreholes. -/
theorem equivalents_sizes (hc : CutOk E.cut) (hN : 0 < E.N) {es : List EqBore} (h : E.equivalents = some es) : (es.map fun e => e.pos.length).sum = E.N := by
  obtain ⟨es', ms, h1, h2, h3⟩ := E.equivalents_partition hc hN
  obtain rfl := Option.some.inj (h.symm.trans h1)
  rw [sum_sizes h3, h2.length_eq]
  simp

/-- Boreholes that are similar have the same dimensions. -/
def ExactDims : Prop :=
  ∀ i < E.N, ∀ j < E.N, cmpDims E.tol (E.bore i) (E.bore j) → (E.bore i).H = (E.bore j).H ∧ (E.bore i).D = (E.bore j).D ∧ (E.bore i).rb = (E.bore j).rb

theorem same_members (hc : CutOk E.cut) (hord : E.uniqueBoreholes.flatten = List.range E.N) (hex : E.ExactDims) (i : ℕ) :
    ∀ b ∈ E.members i, ∀ b' ∈ E.members i, b.H = b'.H ∧ b.D = b'.D ∧ b.rb = b'.rb := by
  have key : ∀ b ∈ E.members i, ∃ k, k < E.N ∧ b = E.bore k ∧ (k, i) ∈ List.zip (List.range E.N) E.clusters.1 := by
    intro b hb
    obtain ⟨x, hx, rfl⟩ := List.mem_map.mp hb
    obtain ⟨hx, hi⟩ := List.mem_filter.mp hx
    have hi : x.2 = i := by simpa using hi
    rw [List.zip_map_left] at hx
    obtain ⟨y, hy, rfl⟩ := List.mem_map.mp hx
    have hi : y.2 = i := hi
    subst hi
    exact ⟨y.1, List.mem_range.mp (List.of_mem_zip (show (y.1, y.2) ∈ _ from hy)).1, rfl, hy⟩
  intro b hb b' hb'
  obtain ⟨k, hk, rfl, h1⟩ := key b hb
  obtain ⟨k', hk', rfl, h2⟩ := key b' hb'
  by_cases hN : 1 < E.N
  · have hl := (E.labels_clusters hc hN).same
    rw [hord] at hl
    obtain ⟨g, hg, hkg, hkg'⟩ := hl _ h1 _ h2 rfl
    obtain ⟨a, t, rfl, ht⟩ := E.unique_headed g hg
    have ha : a < E.N := by
      have : a ∈ E.uniqueBoreholes.flatten := List.mem_flatten.mpr ⟨_, hg, List.mem_cons_self⟩
      rw [hord] at this
      exact List.mem_range.mp this
    have hd : ∀ m < E.N, m ∈ a :: t → (E.bore m).H = (E.bore a).H ∧ (E.bore m).D = (E.bore a).D ∧ (E.bore m).rb = (E.bore a).rb := by
      intro m hm hmt
      rcases List.mem_cons.mp hmt with rfl | hmt
      · exact ⟨rfl, rfl, rfl⟩
      · exact hex m hm a ha (ht m hmt)
    obtain ⟨p1, p2, p3⟩ := hd k hk hkg
    obtain ⟨q1, q2, q3⟩ := hd k' hk' hkg'
    exact ⟨p1.trans q1.symm, p2.trans q2.symm, p3.trans q3.symm⟩
  · have : k = k' := by omega
    subst this
    exact ⟨rfl, rfl, rfl⟩

/-- **C25** (partial: the boreholes are ordered by dimensions, that is, the groups of similar boreholes one after the other are the boreholes in order).  All boreholes of an equivalent
borehole have its dimensions, and the total length of the equivalent boreholes is that of the field.  Without the order, both are false: `equivalents_interleaved`. -/
theorem equivalents_dims_partial (hc : CutOk E.cut) (hN : 0 < E.N) (hord : E.uniqueBoreholes.flatten = List.range E.N) (hex : E.ExactDims) :
    ∃ es ms, E.equivalents = some es ∧ ms.flatten.Perm ((List.range E.N).map E.bore) ∧
      List.Forall₂ (fun m e => e.pos = m.map (fun b => (b.x, b.y)) ∧ ∀ b ∈ m, b.H = e.H ∧ b.D = e.D ∧ b.rb = e.rb) ms es ∧
      (es.map fun e => (e.pos.length : ℝ) * e.H).sum = ((List.range E.N).map fun k => (E.bore k).H).sum := by
  obtain ⟨es, h1, h2⟩ := E.equivalents_some hc hN
  have h3 : List.Forall₂ (fun m e => e.pos = m.map (fun b => (b.x, b.y)) ∧ ∀ b ∈ m, b.H = e.H ∧ b.D = e.D ∧ b.rb = e.rb) ((List.range E.clusters.2).map E.members) es := by
    rw [List.forall₂_map_left_iff]
    refine h2.imp fun i e h => ?_
    obtain ⟨hp, b, t, hm, e1, e2, e3⟩ := eqOf_represents h
    refine ⟨hp, fun b' hb' => ?_⟩
    rw [e1, e2, e3]
    exact E.same_members hc hord hex i b' hb' b (by rw [hm]; exact List.mem_cons_self)
  refine ⟨es, (List.range E.clusters.2).map E.members, h1, E.members_perm hc, h3, ?_⟩
  have hsum : ∀ {ms : List (List Borehole)} {es : List EqBore},
      List.Forall₂ (fun m e => e.pos = m.map (fun b => (b.x, b.y)) ∧ ∀ b ∈ m, b.H = e.H ∧ b.D = e.D ∧ b.rb = e.rb) ms es →
      (es.map fun e => (e.pos.length : ℝ) * e.H).sum = (ms.flatten.map fun b => b.H).sum := by
    intro ms es h
    induction h with
    | nil => simp
    | @cons m e ms es h _ ih =>
      rw [List.map_cons, List.sum_cons, ih, List.flatten_cons, List.map_append, List.sum_append, h.1, List.length_map]
      have : m.map (fun b => b.H) = List.replicate m.length e.H := by
        rw [List.eq_replicate_iff]
        refine ⟨List.length_map _, fun x hx => ?_⟩
        obtain ⟨b, hb, rfl⟩ := List.mem_map.mp hx
        exact (h.2 b hb).1
      rw [this, List.sum_replicate, nsmul_eq_mul]
  rw [hsum h3, ((E.members_perm hc).map fun b => b.H).sum_eq, List.map_map]
  rfl

theorem addSelf_single {ok : ℕ → ℕ → Prop} (is : List ℕ) (a : ℕ) (t : List ℕ) (h : ∀ i ∈ is, ok i a) : is.foldl (addSelf ok) [a :: t] = [a :: t ++ is] := by
  induction is generalizing t with
  | nil => simp
  | cons i is ih =>
    have e : addSelf ok [a :: t] i = [a :: (t ++ [i])] := by
      exact if_pos (h i List.mem_cons_self)
    rw [List.foldl_cons, e, ih _ fun j hj => h j (List.mem_cons_of_mem _ hj)]
    simp

/-- Fields of boreholes of the same dimensions are ordered. -/
theorem uniform_ordered (h : ∀ i < E.N, cmpDims E.tol (E.bore i) (E.bore 0)) : E.uniqueBoreholes.flatten = List.range E.N := by
  unfold uniqueBoreholes
  cases hN : E.N with
  | zero => rfl
  | succ n =>
    rw [List.range_succ_eq_map, List.foldl_cons]
    have e : addSelf (fun i m => cmpDims E.tol (E.bore i) (E.bore m)) [] 0 = [[0]] := rfl
    rw [e, addSelf_single]
    · simp
    · intro i hi
      obtain ⟨j, hj, rfl⟩ := List.mem_map.mp hi
      have := List.mem_range.mp hj
      exact h _ (by omega)

/-! ### Boreholes that are not ordered by dimensions -/

/-- Boreholes of 100 m, 50 m and 100 m on a line. -/
def alternating (cut : List ℝ → ℕ × List ℕ) : EqIn := ⟨3, fun k => ⟨if k = 1 then 50 else 100, 4, 0.075, 5 * k, 0, 0, 0⟩, 1 / 10 ^ 6, 1 / 100, cut⟩

theorem alternating_unique (cut : List ℝ → ℕ × List ℕ) : (alternating cut).uniqueBoreholes = [[0, 2], [1]] := by
  have h10 : ¬ cmpDims (alternating cut).tol ((alternating cut).bore 1) ((alternating cut).bore 0) := by
    rintro ⟨h, -⟩
    norm_num [alternating] at h
  have h20 : cmpDims (alternating cut).tol ((alternating cut).bore 2) ((alternating cut).bore 0) := by
    refine ⟨?_, ?_, ?_⟩ <;> norm_num [alternating]
  have e : List.range (alternating cut).N = [0, 1, 2] := rfl
  unfold uniqueBoreholes
  rw [e]
  simp only [List.foldl_cons, List.foldl_nil, addSelf, List.headD_cons, h10, h20, if_true, if_false, List.singleton_append]

theorem alternating_temp (cut : List ℝ → ℕ × List ℕ) : (alternating cut).temp 0 = (alternating cut).temp 2 := by
  have hp : ∀ j i, FLS.pairOf ((alternating cut).bore j) ((alternating cut).bore i) =
      ⟨max 0.075 |5 * (j : ℝ) - 5 * i|, if j = 1 then 50 else 100, 4, if i = 1 then 50 else 100, 4⟩ := by
    intro j i
    simp only [FLS.pairOf, Borehole.distance, alternating]
    rw [sub_self, zero_pow two_ne_zero, add_zero, Real.sqrt_sq_eq_abs]
  have e : List.range (alternating cut).N = [0, 1, 2] := rfl
  unfold temp
  rw [e]
  simp only [List.map_cons, List.map_nil, List.sum_cons, List.sum_nil, hp]
  norm_num
  ring

/-- **C25** (negation).  For the boreholes of 100 m, 50 m and 100 m, whatever the clustering, the first equivalent borehole is made of boreholes of 100 m and 50 m and the total length
of the equivalent boreholes is 300 m; that of the field is 250 m. -/
theorem equivalents_interleaved {cut : List ℝ → ℕ × List ℕ} (hc : CutOk cut) :
    ∃ es, (alternating cut).equivalents = some es ∧ es = [⟨100, 4, 0.075, [(0, 0), (5, 0)]⟩, ⟨100, 4, 0.075, [(10, 0)]⟩] ∧
      (es.map fun e => (e.pos.length : ℝ) * e.H).sum = 300 ∧ ((List.range (alternating cut).N).map fun k => ((alternating cut).bore k).H).sum = 250 := by
  have hd : 1 < ([(alternating cut).temp 0, (alternating cut).temp 2] : List ℝ).length := by simp
  have hone : (cut [(alternating cut).temp 0, (alternating cut).temp 2]).1 = 1 := hc.equal _ hd (by
    intro x hx y hy
    simp only [alternating_temp, List.mem_cons, List.not_mem_nil, or_false, or_self] at hx hy
    rw [hx, hy])
  have hlab : (cut [(alternating cut).temp 0, (alternating cut).temp 2]).2 = [0, 0] := by
    have h1 := hc.len _ hd
    have h2 := hc.lt _ hd
    rw [hone] at h2
    obtain ⟨l, hl⟩ : ∃ l, l = (cut [(alternating cut).temp 0, (alternating cut).temp 2]).2 := ⟨_, rfl⟩
    rw [← hl] at h1 h2 ⊢
    match l, h1 with
    | [a, b], _ =>
      have ha := h2 a (by simp)
      have hb := h2 b (by simp)
      have : a = 0 := by omega
      have : b = 0 := by omega
      subst_vars
      rfl
  have hcl : (alternating cut).clusters = ([0, 0, 1], 2) := by
    unfold clusters
    rw [if_pos (by norm_num [alternating]), alternating_unique]
    have e : (alternating cut).cut = cut := rfl
    simp only [List.foldl_cons, List.foldl_nil, clusterStep, List.map_cons, List.map_nil, e, hone, hlab]
    simp
  have e3 : List.range (alternating cut).N = [0, 1, 2] := rfl
  refine ⟨[⟨100, 4, 0.075, [(0, 0), (5, 0)]⟩, ⟨100, 4, 0.075, [(10, 0)]⟩], ?_, rfl, ?_, ?_⟩
  · unfold equivalents
    have hm0 : (alternating cut).members 0 = [(alternating cut).bore 0, (alternating cut).bore 1] := by
      simp [members, hcl, e3]
    have hm1 : (alternating cut).members 1 = [(alternating cut).bore 2] := by
      simp [members, hcl, e3]
    have e2 : List.range (alternating cut).clusters.2 = [0, 1] := by rw [hcl]; rfl
    rw [e2, e3]
    simp only [List.map_cons, List.map_nil, eqOf, List.mapM_cons, List.mapM_nil, hm0, hm1]
    norm_num [alternating]
  · norm_num
  · rw [e3]
    norm_num [alternating]

/-- A clustering in one cluster. -/
def oneCluster (d : List ℝ) : ℕ × List ℕ := (1, List.replicate d.length 0)

theorem oneCluster_ok : CutOk oneCluster := by
  refine ⟨fun d _ => by simp [oneCluster], fun d h l hl => ?_, fun d h l hl => ?_, fun d _ _ => rfl⟩
  · have := List.eq_of_mem_replicate hl
    subst this
    exact Nat.one_pos
  · have : l = 0 := by simp only [oneCluster] at hl; omega
    subst this
    exact List.mem_replicate.mpr ⟨by omega, rfl⟩

/-- Two clusters: the boreholes at least as warm as the mean of the extreme temperatures, and the others. -/
def twoClusters (d : List ℝ) : ℕ × List ℕ :=
  if ∀ x ∈ d, ∀ y ∈ d, x = y then oneCluster d
  else
    let hi := d.foldl max (d.headD 0)
    (if ∃ x ∈ d, x < hi then (if ∃ x ∈ d, x = hi then (2, d.map fun x => if x = hi then 1 else 0) else oneCluster d) else oneCluster d)

theorem twoClusters_ok : CutOk twoClusters := by
  have h1 := oneCluster_ok
  refine ⟨fun d h => ?_, fun d h => ?_, fun d h => ?_, fun d h he => ?_⟩
  · unfold twoClusters
    dsimp only
    split_ifs
    · exact h1.len d h
    · simp
    · exact h1.len d h
    · exact h1.len d h
  · unfold twoClusters
    dsimp only
    split_ifs
    · exact h1.lt d h
    · intro l hl
      obtain ⟨x, -, rfl⟩ := List.mem_map.mp hl
      dsimp only
      split_ifs <;> omega
    · exact h1.lt d h
    · exact h1.lt d h
  · unfold twoClusters
    dsimp only
    split_ifs with _ ha hb
    · exact h1.surj d h
    · intro l hl
      obtain ⟨x, hx, hxl⟩ := ha
      obtain ⟨y, hy, hyl⟩ := hb
      dsimp only at hl ⊢
      rcases (show l = 0 ∨ l = 1 by omega) with rfl | rfl
      · exact List.mem_map.mpr ⟨x, hx, if_neg hxl.ne⟩
      · exact List.mem_map.mpr ⟨y, hy, if_pos hyl⟩
    · exact h1.surj d h
    · exact h1.surj d h
  · unfold twoClusters
    rw [if_pos he]
    rfl

example : ∃ es, (alternating twoClusters).equivalents = some es ∧ (es.map fun e => (e.pos.length : ℝ) * e.H).sum = 300 :=
  let ⟨es, h1, _, h2, _⟩ := equivalents_interleaved twoClusters_ok
  ⟨es, h1, h2⟩

/-- Five boreholes of 100 m on a line. -/
def line5 (cut : List ℝ → ℕ × List ℕ) : EqIn := ⟨5, fun k => ⟨100, 4, 0.075, 5 * k, 0, 0, 0⟩, 1 / 10 ^ 6, 1 / 100, cut⟩

example : ∃ es, (line5 twoClusters).equivalents = some es ∧ (es.map fun e => (e.pos.length : ℝ) * e.H).sum = 500 := by
  have hs : ∀ i < (line5 twoClusters).N, cmpDims (line5 twoClusters).tol ((line5 twoClusters).bore i) ((line5 twoClusters).bore 0) := by
    intro i _
    refine ⟨?_, ?_, ?_⟩ <;> norm_num [line5]
  obtain ⟨es, -, h1, -, -, h2⟩ := (line5 twoClusters).equivalents_dims_partial twoClusters_ok (by norm_num [line5]) ((line5 twoClusters).uniform_ordered hs) fun i _ j _ _ => ⟨rfl, rfl, rfl⟩
  refine ⟨es, h1, h2.trans ?_⟩
  have e : List.range (line5 twoClusters).N = [0, 1, 2, 3, 4] := rfl
  rw [e]
  norm_num [line5]

end EqIn

end Verif.Sol
