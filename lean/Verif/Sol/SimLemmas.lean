import Verif.Sol.SimModel
import Verif.Sol.DetLemmas
import Verif.Bore.DistProps

/-!
# Lemmas about the `Similarities` solver
-/

noncomputable section

namespace Verif.Sol

open Bore Classical

/-- The value after a sequence of assignments is that of one of the assignments to the position, if there is one. -/
theorem fill_mem (ws : List Write) (M : ℕ → ℕ → ℝ) (r c : ℕ) :
    (fill ws M r c = M r c ∧ ∀ w ∈ ws, ¬ (w.row = r ∧ w.col = c)) ∨ ∃ w ∈ ws, w.row = r ∧ w.col = c ∧ fill ws M r c = w.value := by
  induction ws generalizing M with
  | nil => left; simp [fill]
  | cons w ws ih =>
    rw [fill]
    rcases ih (fun r c => if r = w.row ∧ c = w.col then w.value else M r c) with ⟨h1, h2⟩ | ⟨w', hw', h⟩
    · by_cases hw : r = w.row ∧ c = w.col
      · right
        exact ⟨w, List.mem_cons_self, hw.1.symm, hw.2.symm, by rw [h1, if_pos hw]⟩
      · left
        refine ⟨by rw [h1, if_neg hw], fun w' hw' => ?_⟩
        rcases List.mem_cons.mp hw' with rfl | hm
        · exact fun h => hw ⟨h.1.symm, h.2.symm⟩
        · exact h2 w' hm
    · exact .inr ⟨w', List.mem_cons_of_mem _ hw', h⟩

/-! ### Groups -/

/-- A pair in increasing order. -/
def ord (p : ℕ × ℕ) : ℕ × ℕ := (min p.1 p.2, max p.1 p.2)

theorem ord_swap (p : ℕ × ℕ) : ord p.swap = ord p := by simp [ord, min_comm, max_comm]

theorem ord_of_lt {p : ℕ × ℕ} (h : p.1 < p.2) : ord p = p := by
  obtain ⟨a, b⟩ := p
  simp only [ord] at *
  rw [min_eq_left h.le, max_eq_right h.le]

theorem addPair_perm (ok : ℕ × ℕ → ℕ × ℕ → Prop) (gs : List (List (ℕ × ℕ))) (p : ℕ × ℕ) :
    ((addPair ok gs p).flatten.map ord).Perm (gs.flatten.map ord ++ [ord p]) := by
  induction gs with
  | nil => simp [addPair]
  | cons g gs ih =>
    rw [addPair]
    split_ifs
    · simp only [List.flatten_cons, List.map_append, List.append_assoc, List.map_cons, List.map_nil]
      exact List.Perm.append_left _ List.perm_append_comm
    · simp only [List.flatten_cons, List.map_append, List.append_assoc, List.map_cons, List.map_nil, ord_swap]
      exact List.Perm.append_left _ List.perm_append_comm
    · simp only [List.flatten_cons, List.map_append, List.append_assoc]
      exact List.Perm.append_left _ ih

/-- Every member of a group is its first member or similar to it. -/
def HeadedBy {α : Type*} (ok : α → α → Prop) (g : List α) : Prop := ∃ h t, g = h :: t ∧ ∀ p ∈ t, ok p h

theorem HeadedBy.snoc {α : Type*} {ok : α → α → Prop} {g : List α} (hg : HeadedBy ok g) {d p : α} (hp : ok p (g.headD d)) : HeadedBy ok (g ++ [p]) := by
  obtain ⟨h, t, rfl, ht⟩ := hg
  refine ⟨h, t ++ [p], rfl, fun q hq => ?_⟩
  rcases List.mem_append.mp hq with hq | hq
  · exact ht q hq
  · rw [List.mem_singleton.mp hq]; exact hp

theorem addPair_headed (ok : ℕ × ℕ → ℕ × ℕ → Prop) (gs : List (List (ℕ × ℕ))) (p : ℕ × ℕ) (h : ∀ g ∈ gs, HeadedBy ok g) : ∀ g ∈ addPair ok gs p, HeadedBy ok g := by
  induction gs with
  | nil =>
    intro g hg
    simp only [addPair, List.mem_singleton] at hg
    exact ⟨p, [], hg, by simp⟩
  | cons g gs ih =>
    have hg := h g List.mem_cons_self
    have hgs := fun g' hg' => h g' (List.mem_cons_of_mem _ hg')
    rw [addPair]
    split_ifs with h1 h2
    · rintro g' (_ | ⟨_, hg'⟩)
      · exact hg.snoc h1
      · exact hgs _ hg'
    · rintro g' (_ | ⟨_, hg'⟩)
      · exact hg.snoc h2
      · exact hgs _ hg'
    · rintro g' (_ | ⟨_, hg'⟩)
      · exact hg
      · exact ih hgs _ hg'

theorem addSelf_perm (ok : ℕ → ℕ → Prop) (gs : List (List ℕ)) (i : ℕ) : (addSelf ok gs i).flatten.Perm (gs.flatten ++ [i]) := by
  induction gs with
  | nil => simp [addSelf]
  | cons g gs ih =>
    rw [addSelf]
    split_ifs
    · simp only [List.flatten_cons, List.append_assoc]
      exact List.Perm.append_left _ List.perm_append_comm
    · simp only [List.flatten_cons, List.append_assoc]
      exact List.Perm.append_left _ ih

theorem addSelf_headed (ok : ℕ → ℕ → Prop) (gs : List (List ℕ)) (i : ℕ) (h : ∀ g ∈ gs, HeadedBy ok g) : ∀ g ∈ addSelf ok gs i, HeadedBy ok g := by
  induction gs with
  | nil =>
    intro g hg
    simp only [addSelf, List.mem_singleton] at hg
    exact ⟨i, [], hg, by simp⟩
  | cons g gs ih =>
    have hg := h g List.mem_cons_self
    have hgs := fun g' hg' => h g' (List.mem_cons_of_mem _ hg')
    rw [addSelf]
    split_ifs with h1
    · rintro g' (_ | ⟨_, hg'⟩)
      · exact hg.snoc h1
      · exact hgs _ hg'
    · rintro g' (_ | ⟨_, hg'⟩)
      · exact hg
      · exact ih hgs _ hg'

namespace Sim

variable (S : Sim)

/-- Both boreholes are vertical. -/
def bothVertical (p : ℕ × ℕ) : Bool := vertical (S.bore p.1) && vertical (S.bore p.2)

theorem pairs_fold (ps : List (ℕ × ℕ)) (st : List (List (ℕ × ℕ)) × List (List (ℕ × ℕ))) :
    ((ps.foldl S.pairStep st).1.flatten.map ord).Perm (st.1.flatten.map ord ++ (ps.filter S.bothVertical).map ord) ∧
    ((ps.foldl S.pairStep st).2.flatten.map ord).Perm (st.2.flatten.map ord ++ (ps.filter fun p => !S.bothVertical p).map ord) ∧
    ((∀ g ∈ st.1, HeadedBy (S.okPair (cmpVertical S.tol)) g) → ∀ g ∈ (ps.foldl S.pairStep st).1, HeadedBy (S.okPair (cmpVertical S.tol)) g) ∧
    ((∀ g ∈ st.2, HeadedBy (S.okPair (cmpInclined S.tol S.disTol)) g) → ∀ g ∈ (ps.foldl S.pairStep st).2, HeadedBy (S.okPair (cmpInclined S.tol S.disTol)) g) := by
  induction ps generalizing st with
  | nil => simp
  | cons p ps ih =>
    obtain ⟨h1, h2, h3, h4⟩ := ih (S.pairStep st p)
    rw [List.foldl_cons]
    by_cases hv : S.bothVertical p = true
    · have e : S.pairStep st p = (addPair (S.okPair (cmpVertical S.tol)) st.1 p, st.2) := if_pos hv
      rw [e] at h1 h2 h3 h4 ⊢
      refine ⟨h1.trans ?_, by simpa [hv] using h2, fun h => h3 (addPair_headed _ _ _ h), h4⟩
      rw [List.filter_cons_of_pos hv, List.map_cons, List.append_cons]
      exact List.Perm.append_right _ (addPair_perm _ _ _)
    · have e : S.pairStep st p = (st.1, addPair (S.okPair (cmpInclined S.tol S.disTol)) st.2 p) := if_neg hv
      rw [e] at h1 h2 h3 h4 ⊢
      refine ⟨by simpa [hv] using h1, h2.trans ?_, h3, fun h => h4 (addPair_headed _ _ _ h)⟩
      rw [List.filter_cons_of_pos (by simpa using hv), List.map_cons, List.append_cons]
      exact List.Perm.append_right _ (addPair_perm _ _ _)

theorem self_fold (is : List ℕ) (st : List (List ℕ) × List (List ℕ)) :
    (is.foldl S.selfStep st).1.flatten.Perm (st.1.flatten ++ is.filter fun i => vertical (S.bore i)) ∧
    (is.foldl S.selfStep st).2.flatten.Perm (st.2.flatten ++ is.filter fun i => !vertical (S.bore i)) ∧
    ((∀ g ∈ st.1, HeadedBy S.okSelf g) → ∀ g ∈ (is.foldl S.selfStep st).1, HeadedBy S.okSelf g) ∧
    ((∀ g ∈ st.2, HeadedBy S.okSelf g) → ∀ g ∈ (is.foldl S.selfStep st).2, HeadedBy S.okSelf g) := by
  induction is generalizing st with
  | nil => simp
  | cons p ps ih =>
    obtain ⟨h1, h2, h3, h4⟩ := ih (S.selfStep st p)
    rw [List.foldl_cons]
    by_cases hv : vertical (S.bore p) = true
    · have e : S.selfStep st p = (addSelf S.okSelf st.1 p, st.2) := by unfold selfStep; rw [if_pos hv]
      rw [e] at h1 h2 h3 h4 ⊢
      refine ⟨h1.trans ?_, by simpa [hv] using h2, fun h => h3 (addSelf_headed _ _ _ h), h4⟩
      rw [List.filter_cons_of_pos (by simpa using hv), List.append_cons]
      exact List.Perm.append_right _ (addSelf_perm _ _ _)
    · have e : S.selfStep st p = (st.1, addSelf S.okSelf st.2 p) := by unfold selfStep; rw [if_neg hv]
      rw [e] at h1 h2 h3 h4 ⊢
      refine ⟨by simpa [hv] using h1, h2.trans ?_, h3, fun h => h4 (addSelf_headed _ _ _ h)⟩
      rw [List.filter_cons_of_pos (by simpa using hv), List.append_cons]
      exact List.Perm.append_right _ (addSelf_perm _ _ _)

theorem mem_pairs (p : ℕ × ℕ) : p ∈ S.pairs ↔ p.1 < p.2 ∧ p.2 < S.N := by
  obtain ⟨i, j⟩ := p
  simp only [pairs, List.mem_flatMap, List.mem_range, List.mem_map, List.mem_range'_1, Prod.mk.injEq]
  constructor
  · rintro ⟨i', h1, j', h2, rfl, rfl⟩; omega
  · intro h; exact ⟨i, by omega, j, by omega, rfl, rfl⟩

theorem nodup_pairs : S.pairs.Nodup := by
  unfold pairs
  rw [List.nodup_flatMap]
  constructor
  · intro i _
    exact List.Nodup.map (fun a b h => (Prod.mk.inj h).2) List.nodup_range'
  · refine List.Pairwise.imp ?_ (List.nodup_range (n := S.N))
    intro i i' hne x h1 h2
    simp only [List.mem_map] at h1 h2
    obtain ⟨_, _, rfl⟩ := h1
    obtain ⟨_, _, h⟩ := h2
    exact hne (Prod.mk.inj h).1.symm

/-! ### Segments -/

theorem first_succ (k : ℕ) : S.first (k + 1) = S.first k + S.ns k := by simp [first, List.range_succ]

theorem first_mono {k l : ℕ} (h : k ≤ l) : S.first k ≤ S.first l := by
  induction h with
  | refl => exact le_rfl
  | step _ ih => rw [first_succ]; omega

theorem first_inj {k l a b : ℕ} (ha : a < S.ns k) (hb : b < S.ns l) (h : a + S.first k = b + S.first l) : k = l ∧ a = b := by
  have hkl : k = l := by
    rcases Nat.lt_trichotomy k l with h' | h' | h'
    · have := S.first_mono (show k + 1 ≤ l from h'); rw [first_succ] at this; omega
    · exact h'
    · have := S.first_mono (show l + 1 ≤ k from h'); rw [first_succ] at this; omega
  subst hkl
  exact ⟨rfl, by omega⟩

theorem mem_segPairs (i j : ℕ) (p : ℕ × ℕ) : p ∈ S.segPairs i j ↔ p.1 < S.ns i ∧ p.2 < S.ns j := by
  obtain ⟨a, b⟩ := p
  simp [segPairs]

/-- Invariant of the search of unique pairs of segments. -/
theorem axial_fold (cmp : Borehole × Borehole → Borehole × Borehole → Prop) (i j : ℕ) (ps qs us : List (ℕ × ℕ)) (ks : List ℕ) (hl : ks.length = ps.length)
    (hk : ∀ x ∈ List.zip ps ks, ∃ u, us[x.2]? = some u ∧ (u = x.1 ∨ cmp (S.seg i x.1.1, S.seg j x.1.2) (S.seg i u.1, S.seg j u.2)))
    (hu : ∀ u ∈ us, u ∈ ps) (hm : us.length = if ks = [] then 0 else kMax ks) :
    let r := qs.foldl (S.axialStep cmp i j) (us, ks)
    r.2.length = (ps ++ qs).length ∧
    (∀ x ∈ List.zip (ps ++ qs) r.2, ∃ u, r.1[x.2]? = some u ∧ (u = x.1 ∨ cmp (S.seg i x.1.1, S.seg j x.1.2) (S.seg i u.1, S.seg j u.2))) ∧
    (∀ u ∈ r.1, u ∈ ps ++ qs) ∧ r.1.length = if r.2 = [] then 0 else kMax r.2 := by
  induction qs generalizing ps us ks with
  | nil => exact ⟨by simpa using hl, by simpa using hk, by simpa using hu, hm⟩
  | cons q qs ih =>
    have hkm : ∀ k, kMax (ks ++ [k]) = max (if ks = [] then 0 else kMax ks) (k + 1) := by
      intro k
      unfold kMax
      rw [List.foldl_append]
      by_cases h : ks = []
      · subst h; simp
      · rw [if_neg h]; simp only [List.foldl_cons, List.foldl_nil]; omega
    rw [List.foldl_cons, List.append_cons]
    have hz : ∀ k : ℕ, List.zip (ps ++ [q]) (ks ++ [k]) = List.zip ps ks ++ [(q, k)] := by
      intro k; rw [List.zip_append hl.symm]; rfl
    cases hf : us.findIdx? fun u => decide (cmp (S.seg i q.1, S.seg j q.2) (S.seg i u.1, S.seg j u.2)) with
    | some k =>
      have e : S.axialStep cmp i j (us, ks) q = (us, ks ++ [k]) := by simp only [axialStep, hf]
      rw [e]
      obtain ⟨hlt, hc, -⟩ := List.findIdx?_eq_some_iff_getElem.mp hf
      refine ih (ps ++ [q]) us (ks ++ [k]) (by simp [hl]) ?_ (fun u h => List.mem_append_left _ (hu u h)) ?_
      · rw [hz]
        intro x hx
        rcases List.mem_append.mp hx with hx | hx
        · exact hk x hx
        · rw [List.mem_singleton.mp hx]
          exact ⟨us[k], List.getElem?_eq_getElem hlt, .inr (by simpa using hc)⟩
      · rw [if_neg (by simp), hkm, ← hm]; omega
    | none =>
      have e : S.axialStep cmp i j (us, ks) q = (us ++ [q], ks ++ [us.length]) := by simp only [axialStep, hf]
      rw [e]
      refine ih (ps ++ [q]) (us ++ [q]) (ks ++ [us.length]) (by simp [hl]) ?_ ?_ ?_
      · rw [hz]
        intro x hx
        rcases List.mem_append.mp hx with hx | hx
        · obtain ⟨u, h1, h2⟩ := hk x hx
          exact ⟨u, by rw [List.getElem?_append_left (List.getElem?_eq_some_iff.mp h1).1, h1], h2⟩
        · rw [List.mem_singleton.mp hx]
          exact ⟨q, by simp, .inl rfl⟩
      · intro u h
        rcases List.mem_append.mp h with h | h
        · exact List.mem_append_left _ (hu u h)
        · exact List.mem_append_right _ h
      · rw [if_neg (by simp), hkm, ← hm]; simp

theorem mapAxial_spec (cmp : Borehole × Borehole → Borehole × Borehole → Prop) (i j : ℕ) :
    (S.mapAxial cmp i j).2.length = (S.segPairs i j).length ∧
    (∀ x ∈ List.zip (S.segPairs i j) (S.mapAxial cmp i j).2, ∃ u, (S.mapAxial cmp i j).1[x.2]? = some u ∧
      (u = x.1 ∨ cmp (S.seg i x.1.1, S.seg j x.1.2) (S.seg i u.1, S.seg j u.2))) ∧
    (∀ u ∈ (S.mapAxial cmp i j).1, u ∈ S.segPairs i j) ∧
    ((S.mapAxial cmp i j).2 ≠ [] → (S.mapAxial cmp i j).1.length = kMax (S.mapAxial cmp i j).2) := by
  obtain ⟨h1, h2, h3, h4⟩ := S.axial_fold cmp i j [] (S.segPairs i j) [] [] rfl (by simp) (by simp) (by simp)
  exact ⟨h1, h2, h3, fun h => h4.trans (if_neg h)⟩

/-! ### Distances -/

theorem labelled_get {f : ℕ → ℕ} {k : ℕ} {qs : List (List ℕ)} (h : Labelled f k qs) {p : ℕ} (hp : p ∈ qs.flatten) : ∃ q ∈ qs, p ∈ q ∧ k ≤ f p ∧ qs[f p - k]? = some q := by
  induction qs generalizing k with
  | nil => simp at hp
  | cons q qs ih =>
    rw [List.flatten_cons, List.mem_append] at hp
    rcases hp with hp | hp
    · exact ⟨q, List.mem_cons_self, hp, (h.1 p hp).ge, by rw [h.1 p hp]; simp⟩
    · obtain ⟨q', h1, h2, h3, h4⟩ := ih h.2 hp
      refine ⟨q', List.mem_cons_of_mem _ h1, h2, by omega, ?_⟩
      have : f p - k = (f p - (k + 1)) + 1 := by omega
      rw [this, List.getElem?_cons_succ, h4]

theorem grouped_get {tol : ℝ} {gs : List (List ℝ)} (h : Grouped tol gs) {g : List ℝ} (hg : g ∈ gs) : ∃ a t, g = a :: t ∧ ∀ x ∈ t, a ≤ x ∧ x < (1 + tol) * a := by
  induction gs with
  | nil => simp at hg
  | cons g' gs ih =>
    rcases List.mem_cons.mp hg with rfl | hm
    · obtain ⟨⟨a, t, h1, h2, -⟩, -⟩ := h
      exact ⟨a, t, h1, h2⟩
    · exact ih h.2 hm

theorem mean_bounds {g : List ℝ} (hne : g ≠ []) {lo hi : ℝ} (h : ∀ x ∈ g, lo ≤ x ∧ x ≤ hi) : lo ≤ npMean g ∧ npMean g ≤ hi := by
  have hpos : (0 : ℝ) < g.length := by exact_mod_cast List.length_pos_iff.mpr hne
  have h1 := List.card_nsmul_le_sum g lo fun x hx => (h x hx).1
  have h2 := List.sum_le_card_nsmul g hi fun x hx => (h x hx).2
  rw [nsmul_eq_mul] at h1 h2
  unfold npMean
  exact ⟨by rw [le_div_iff₀ hpos]; linarith, by rw [div_le_iff₀ hpos]; linarith⟩

/-- The distance assigned to a pair is within the tolerance of its distance. -/
theorem distance_close {tol : ℝ} (ht : 0 < tol) {all : List ℝ} (hpos : ∀ x ∈ all, 0 < x) {isort : List ℕ} (hperm : isort.Perm (List.range all.length))
    (hsort : (isort.map fun p : ℕ => all.getD p 0).Pairwise (· ≤ ·)) {init : ℕ → ℕ} {ds : List ℝ} {idx : ℕ → ℕ} (h : FindDistances tol all isort init ds idx)
    {p : ℕ} {x : ℝ} (hp : all[p]? = some x) : ∃ d, ds[idx p]? = some d ∧ |d - x| ≤ tol * x ∧ ∃ q, d = npMean q ∧ x ∈ q ∧ ∀ y ∈ q, y ∈ all ∧ ∀ z ∈ q, y < (1 + tol) * z := by
  obtain ⟨ds', idx', qs, h', hq, hg, hd, hl⟩ := find_distances_groups tol ht all hpos isort hperm hsort init
  obtain ⟨s, hs, rfl, rfl⟩ := h
  obtain ⟨s', hs', rfl, rfl⟩ := h'
  obtain rfl := hs.det hs'
  obtain ⟨hlt, hx⟩ := List.getElem?_eq_some_iff.mp hp
  obtain ⟨q, hq1, hq2, -, hq4⟩ := labelled_get hl (p := p) (hq.mem_iff.mpr (List.mem_range.mpr hlt))
  rw [Nat.sub_zero] at hq4
  obtain ⟨a, t, h1, h2⟩ := grouped_get hg (List.mem_map_of_mem hq1)
  have hxm : x ∈ q.map fun p : ℕ => all.getD p 0 := List.mem_map.mpr ⟨p, hq2, by rw [List.getD_eq_getElem _ _ hlt, hx]⟩
  have hx0 : 0 < x := hpos x (List.mem_of_getElem? hp)
  have ha0 : 0 < a := by
    have : a ∈ q.map fun p : ℕ => all.getD p 0 := by rw [h1]; exact List.mem_cons_self
    obtain ⟨p', hp', rfl⟩ := List.mem_map.mp this
    have hlt' : p' < all.length := List.mem_range.mp (hq.mem_iff.mp (List.mem_flatten.mpr ⟨q, hq1, hp'⟩))
    rw [List.getD_eq_getElem _ _ hlt']
    exact hpos _ (List.getElem_mem hlt')
  have hb : ∀ y ∈ q.map fun p : ℕ => all.getD p 0, a ≤ y ∧ y ≤ (1 + tol) * a := by
    rw [h1]
    intro y hy
    rcases List.mem_cons.mp hy with rfl | hy
    · exact ⟨le_rfl, by nlinarith⟩
    · exact ⟨(h2 y hy).1, (h2 y hy).2.le⟩
  have hm := mean_bounds (by rw [h1]; simp) hb
  have hxb := hb x hxm
  refine ⟨_, by rw [hd, List.getElem?_map, hq4]; rfl, ?_, _, rfl, hxm, fun y hy => ⟨?_, fun z hz => ?_⟩⟩
  · have := mul_le_mul_of_nonneg_left hxb.1 ht.le
    rw [abs_le]
    constructor <;> nlinarith [hm.1, hm.2, hxb.1, hxb.2]
  · obtain ⟨p', hp', rfl⟩ := List.mem_map.mp hy
    have hlt' : p' < all.length := List.mem_range.mp (hq.mem_iff.mp (List.mem_flatten.mpr ⟨q, hq1, hp'⟩))
    rw [List.getD_eq_getElem _ _ hlt']
    exact List.getElem_mem hlt'
  · have h3 := (hb z hz).1
    have h4 : y < (1 + tol) * a := by
      rw [h1] at hy
      rcases List.mem_cons.mp hy with rfl | hy
      · nlinarith
      · exact (h2 y hy).2
    nlinarith

end Sim

end Verif.Sol
