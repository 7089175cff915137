import Verif.Sol.DetModel

/-!
# Lemmas about the discretization and the assignment of the response factors
-/

noncomputable section

namespace Verif.Sol

open Bore

/-! ### Assignments -/

theorem fill_spec (ws : List Write) (M : ℕ → ℕ → ℝ) (r c : ℕ) (v : ℝ) (h : ∀ w ∈ ws, w.row = r → w.col = c → w.value = v)
    (he : (∃ w ∈ ws, w.row = r ∧ w.col = c) ∨ M r c = v) : fill ws M r c = v := by
  induction ws generalizing M with
  | nil => simpa [fill] using he
  | cons w ws ih =>
    rw [fill]
    apply ih _ fun w' hw' => h w' (List.mem_cons_of_mem _ hw')
    by_cases hw : r = w.row ∧ c = w.col
    · right
      rw [if_pos hw]
      exact h w List.mem_cons_self hw.1.symm hw.2.symm
    · rw [if_neg hw]
      rcases he with ⟨w', hw', h1⟩ | he
      · rcases List.mem_cons.mp hw' with rfl | hm
        · exact absurd ⟨h1.1.symm, h1.2.symm⟩ hw
        · exact .inl ⟨w', hm, h1⟩
      · exact .inr he

theorem mem_of_mapM {α β : Type*} {f : α → Option β} {l : List α} {m : List β} (h : l.mapM f = some m) : ∀ y, y ∈ m ↔ ∃ x ∈ l, f x = some y := by
  induction l generalizing m with
  | nil =>
    have : m = [] := by simpa using h.symm
    subst this
    simp
  | cons a l ih =>
    rw [List.mapM_cons] at h
    cases ha : f a with
    | none => rw [ha] at h; simp at h
    | some b =>
      cases hl : l.mapM f with
      | none => rw [ha, hl] at h; simp at h
      | some m' =>
        rw [ha, hl] at h
        have : m = b :: m' := by simpa using h.symm
        subst this
        intro y
        simp [ih hl, ha, eq_comm]

theorem mapM_isSome {α β : Type*} {f : α → Option β} {l : List α} (h : ∀ x ∈ l, ∃ y, f x = some y) : ∃ m, l.mapM f = some m := by
  induction l with
  | nil => exact ⟨[], rfl⟩
  | cons a l ih =>
    obtain ⟨b, hb⟩ := h a List.mem_cons_self
    obtain ⟨m, hm⟩ := ih fun x hx => h x (List.mem_cons_of_mem _ hx)
    exact ⟨b :: m, by rw [List.mapM_cons, hb, hm]; rfl⟩

theorem length_of_mapM {α β : Type*} {f : α → Option β} {l : List α} {m : List β} (h : l.mapM f = some m) : m.length = l.length := by
  induction l generalizing m with
  | nil =>
    have : m = [] := by simpa using h.symm
    subst this; rfl
  | cons a l ih =>
    rw [List.mapM_cons] at h
    cases ha : f a with
    | none => rw [ha] at h; simp at h
    | some b =>
      cases hl : l.mapM f with
      | none => rw [ha, hl] at h; simp at h
      | some m' =>
        rw [ha, hl] at h
        have : m = b :: m' := by simpa using h.symm
        subst this
        simp [ih hl]

/-! ### Positions of the segments -/

theorem i0_succ (ns : List ℕ) (k : ℕ) (n : ℕ) : i0 (n :: ns) (k + 1) = n + i0 ns k := by simp [i0]

theorem i1_eq (ns : List ℕ) (k : ℕ) : i1 ns k = i0 ns (k + 1) := rfl

theorem i0_step (ns : List ℕ) (k : ℕ) (n : ℕ) (h : ns[k]? = some n) : i0 ns (k + 1) = i0 ns k + n := by
  unfold i0
  rw [List.take_add_one, h]
  simp

theorem i0_mono (ns : List ℕ) {k l : ℕ} (h : k ≤ l) : i0 ns k ≤ i0 ns l := by
  unfold i0
  have : ns.take k = (ns.take l).take k := by rw [List.take_take]; congr 1; omega
  rw [this]
  conv_rhs => rw [← List.take_append_drop k (ns.take l), List.sum_append]
  omega

theorem i0_le_sum (ns : List ℕ) (k : ℕ) : i0 ns k ≤ ns.sum := by
  unfold i0
  conv_rhs => rw [← List.take_append_drop k ns, List.sum_append]
  omega

/-- Only one borehole has the segment number `r`. -/
theorem block_unique (ns : List ℕ) {k l r : ℕ} (h1 : i0 ns k ≤ r) (h2 : r < i1 ns k) (h3 : i0 ns l ≤ r) (h4 : r < i1 ns l) : k = l := by
  rw [i1_eq] at h2 h4
  rcases Nat.lt_trichotomy k l with h | h | h
  · have := i0_mono ns (show k + 1 ≤ l from h); omega
  · exact h
  · have := i0_mono ns (show l + 1 ≤ k from h); omega

/-- Every segment number belongs to a borehole. -/
theorem block_exists (ns : List ℕ) {r : ℕ} (h : r < ns.sum) : ∃ k n a, ns[k]? = some n ∧ a < n ∧ r = i0 ns k + a := by
  induction ns generalizing r with
  | nil => simp at h
  | cons n ns ih =>
    by_cases hr : r < n
    · exact ⟨0, n, r, rfl, hr, by simp [i0]⟩
    · obtain ⟨k, m, a, h1, h2, h3⟩ := ih (r := r - n) (by simp at h; omega)
      exact ⟨k + 1, m, a, by simpa using h1, h2, by rw [i0_succ]; omega⟩

theorem segments_length (b : Borehole) (r : List ℝ) : (b.segments r).length = r.length := by
  have hc : ∀ (a : ℝ) (l : List ℝ), (cumsumFrom a l).length = l.length := by
    intro a l
    induction l generalizing a with
    | nil => rfl
    | cons v l ih => simp [cumsumFrom, ih]
  simp [Borehole.segments, Borehole.edges, hc]

/-- One number of segments and one vector of ratios of that length per borehole. -/
structure Consistent (bs : List Borehole) (ns : List ℕ) (rs : List (List ℝ)) : Prop where
  segs : ns.length = bs.length
  ratios : rs.map List.length = ns

theorem Consistent.get {bs : List Borehole} {ns : List ℕ} {rs : List (List ℝ)} (h : Consistent bs ns rs) {k n : ℕ} (hk : ns[k]? = some n) :
    ∃ b r, bs[k]? = some b ∧ rs[k]? = some r ∧ r.length = n := by
  have hlt := (List.getElem?_eq_some_iff.mp hk).1
  have h2 := h.ratios
  have hb : k < bs.length := by rw [← h.segs]; exact hlt
  have hr : k < rs.length := by rw [← h2] at hlt; simpa using hlt
  refine ⟨_, _, List.getElem?_eq_getElem hb, List.getElem?_eq_getElem hr, ?_⟩
  rw [← h2, List.getElem?_map, List.getElem?_eq_getElem hr] at hk
  simpa using hk

/-- The segments of a borehole are found from its first index on. -/
theorem segmentList_get {bs : List Borehole} {ns : List ℕ} {rs : List (List ℝ)} (h : Consistent bs ns rs) {k a n : ℕ} {b : Borehole} {r : List ℝ} (hb : bs[k]? = some b) (hr : rs[k]? = some r)
    (hn : ns[k]? = some n) (ha : a < n) : (segmentList bs ns rs)[i0 ns k + a]? = (b.segments r)[a]? := by
  induction k generalizing bs ns rs with
  | zero =>
    cases bs with
    | nil => simp at hb
    | cons b' bs =>
      cases ns with
      | nil => simp at hn
      | cons n' ns =>
        cases rs with
        | nil => simp at hr
        | cons r' rs =>
          simp only [List.length_cons, Nat.zero_lt_succ, getElem?_pos, List.getElem_cons_zero, Option.some.injEq] at hb hr hn
          subst hb hr hn
          have hl : r'.length = n' := by have := h.ratios; simp at this; exact this.1
          simp only [segmentList, List.zip_cons_cons, List.flatMap_cons, i0, List.take_zero, List.sum_nil, zero_add]
          rw [List.getElem?_append_left (by rw [segments_length, hl]; exact ha)]
  | succ k ih =>
    cases bs with
    | nil => simp at hb
    | cons b' bs =>
      cases ns with
      | nil => simp at hn
      | cons n' ns =>
        cases rs with
        | nil => simp at hr
        | cons r' rs =>
          simp only [List.getElem?_cons_succ] at hb hr hn
          have h1 := h.segs
          have h2 := h.ratios
          simp at h1 h2
          rw [i0_succ]
          have : segmentList (b' :: bs) (n' :: ns) (r' :: rs) = b'.segments r' ++ segmentList bs ns rs := by simp [segmentList]
          rw [this, List.getElem?_append_right (by rw [segments_length, h2.1]; omega), segments_length, h2.1, show n' + i0 ns k + a - n' = i0 ns k + a by omega]
          exact ih ⟨h1, h2.2⟩ hb hr hn

theorem segmentList_length {bs : List Borehole} {ns : List ℕ} {rs : List (List ℝ)} (h : Consistent bs ns rs) : (segmentList bs ns rs).length = ns.sum := by
  induction bs generalizing ns rs with
  | nil =>
    have : ns = [] := by have := h.segs; simpa using this
    subst this; rfl
  | cons b bs ih =>
    cases ns with
    | nil => have := h.segs; simp at this
    | cons n ns =>
      cases rs with
      | nil => have := h.ratios; simp at this
      | cons r rs =>
        have h1 := h.segs
        have h2 := h.ratios
        simp at h1 h2
        have : segmentList (b :: bs) (n :: ns) (r :: rs) = b.segments r ++ segmentList bs ns rs := by simp [segmentList]
        rw [this, List.length_append, segments_length, h2.1, ih ⟨h1, h2.2⟩, List.sum_cons]

/-! ### Index arrays -/

theorem zip_repeat_tile (A B : List ℕ) (i j : ℕ) : (i, j) ∈ List.zip (npRepeat A B.length) (npTile B A.length) ↔ i ∈ A ∧ j ∈ B := by
  induction A with
  | nil => simp [npRepeat, npTile]
  | cons a A ih =>
    have e1 : npRepeat (a :: A) B.length = List.replicate B.length a ++ npRepeat A B.length := by simp [npRepeat]
    have e2 : npTile B (a :: A).length = B ++ npTile B A.length := by simp [npTile, List.replicate_succ]
    have e3 : ∀ B : List ℕ, (i, j) ∈ List.zip (List.replicate B.length a) B ↔ i = a ∧ j ∈ B := by
      intro B
      induction B with
      | nil => simp
      | cons b B ihB =>
        rw [List.length_cons, List.replicate_succ, List.zip_cons_cons, List.mem_cons, ihB, Prod.mk.injEq, List.mem_cons]
        tauto
    rw [e1, e2, List.zip_append (by simp), List.mem_append, ih, e3, List.mem_cons]
    tauto

theorem zip_flatMap {α : Type*} (z : List α) (f g : α → List ℕ) (h : ∀ x ∈ z, (f x).length = (g x).length) (i j : ℕ) :
    (i, j) ∈ List.zip (z.flatMap f) (z.flatMap g) ↔ ∃ x ∈ z, (i, j) ∈ List.zip (f x) (g x) := by
  induction z with
  | nil => simp
  | cons a z ih =>
    rw [List.flatMap_cons, List.flatMap_cons, List.zip_append (h a List.mem_cons_self), List.mem_append, ih fun x hx => h x (List.mem_cons_of_mem _ hx)]
    simp

theorem mem_arange {a b i : ℕ} : i ∈ arange a b ↔ a ≤ i ∧ i < b := by
  unfold arange
  rw [List.mem_range'_1]
  omega

theorem arange_length (a b : ℕ) : (arange a b).length = b - a := by simp [arange]

/-- The index arrays hold all pairs of segments of a same borehole. -/
theorem mem_selfIndices {nB : ℕ} {ns : List ℕ} (h : ns.length = nB) (i j : ℕ) :
    (i, j) ∈ List.zip (selfIndices nB ns).1 (selfIndices nB ns).2 ↔ ∃ k < nB, (i0 ns k ≤ i ∧ i < i1 ns k) ∧ i0 ns k ≤ j ∧ j < i1 ns k := by
  have hz : ∀ x ∈ (List.range nB).zip ns, x.2 = (arange (i0 ns x.1) (i1 ns x.1)).length ∧ x.1 < nB := fun x hx => by
    obtain ⟨p, hp⟩ := List.mem_iff_getElem?.mp hx
    rw [List.getElem?_zip_eq_some] at hp
    obtain ⟨h1, h2⟩ := hp
    have hlt := (List.getElem?_eq_some_iff.mp h1).1
    simp at hlt
    rw [List.getElem?_range hlt] at h1
    have : p = x.1 := by simpa using h1
    subst this
    rw [arange_length, i1_eq, i0_step ns x.1 x.2 h2]
    exact ⟨by omega, hlt⟩
  unfold selfIndices
  dsimp only
  rw [zip_flatMap]
  · constructor
    · rintro ⟨x, hx, hm⟩
      obtain ⟨h1, h2⟩ := hz x hx
      have hm' := hm
      conv at hm' => rw [h1]
      rw [zip_repeat_tile, mem_arange, mem_arange] at hm'
      exact ⟨x.1, h2, hm'⟩
    · rintro ⟨k, hk, hm⟩
      have hmem : (k, ns[k]'(by omega)) ∈ (List.range nB).zip ns := by
        apply List.mem_iff_getElem?.mpr
        refine ⟨k, ?_⟩
        rw [List.getElem?_zip_eq_some]
        exact ⟨List.getElem?_range hk, List.getElem?_eq_getElem _⟩
      refine ⟨_, hmem, ?_⟩
      have h1 := (hz _ hmem).1
      dsimp only at h1 ⊢
      rw [h1, zip_repeat_tile, mem_arange, mem_arange]
      exact hm
  · intro x hx
    simp [npRepeat, npTile]
    ring

end Verif.Sol
