import Verif.Bore.DupLemmas
import Mathlib.Logic.Relation
import Mathlib.Data.List.Pairwise

/-!
# Properties C13, C14, C15: duplicate boreholes
-/

noncomputable section

namespace Verif.Bore

/-- Specification: `r` is the largest borehole radius of the list. -/
def IsMaxRadius (l : List Borehole) (r : ℝ) : Prop := (∃ b ∈ l, b.rb = r) ∧ ∀ b ∈ l, b.rb ≤ r

/-- Specification: two boreholes whose heads are closer than `r` on the ground surface. -/
def Close (r : ℝ) (a b : Borehole) : Prop := Real.sqrt ((a.x - b.x) ^ 2 + (a.y - b.y) ^ 2) < r

/-- Specification: positions `i < j` of the list hold boreholes closer than `r`. -/
def CloseAt (l : List Borehole) (r : ℝ) (i j : ℕ) : Prop :=
  i < j ∧ ∃ a b, l[i]? = some a ∧ l[j]? = some b ∧ Close r a b

/-- **C13.**  For every non-empty list of boreholes, `find_duplicates` succeeds and returns,
without repetition, exactly the pairs `(i, j)` with `i < j` of boreholes closer than the largest
radius of the list. -/
theorem find_duplicates_exact (l : List Borehole) (hl : l ≠ []) :
    ∃ ps r, findDuplicates l = some ps ∧ IsMaxRadius l r ∧ ps.Nodup ∧
      ∀ p : ℤ × ℤ, p ∈ ps ↔ ∃ i j : ℕ, p = ((i : ℤ), (j : ℤ)) ∧ CloseAt l r i j := by
  obtain ⟨r, hr⟩ : ∃ r, maxRadius l = some r := by
    cases l with
    | nil => exact absurd rfl hl
    | cons b l => exact ⟨_, rfl⟩
  refine ⟨(closeIndices (pdist l) r).map (recover l.length), r, by simp [findDuplicates, hr],
    maxRadius_spec l r hr, ?_, ?_⟩
  · apply List.Nodup.map_on
    · intro k hk k' hk' heq
      simp only [closeIndices, List.mem_filter, List.mem_range] at hk hk'
      obtain ⟨i, j, h1, h2, rfl⟩ := pdist_surj l k hk.1
      obtain ⟨i', j', h1', h2', rfl⟩ := pdist_surj l k' hk'.1
      rw [recover_cidx _ _ _ h1 h2, recover_cidx _ _ _ h1' h2'] at heq
      simp only [Prod.mk.injEq, Nat.cast_inj] at heq
      rw [heq.1, heq.2]
    · exact List.nodup_range.filter _
  · intro p
    simp only [List.mem_map, closeIndices, List.mem_filter, List.mem_range, decide_eq_true_eq]
    constructor
    · rintro ⟨k, ⟨hk, hlt⟩, rfl⟩
      obtain ⟨i, j, h1, h2, rfl⟩ := pdist_surj l k hk
      refine ⟨i, j, recover_cidx _ _ _ h1 h2, h1, l[i]'(by omega), l[j], by simp, by simp, ?_⟩
      rw [List.getD_eq_getElem?_getD, pdist_get l i j h1 h2] at hlt
      exact hlt
    · rintro ⟨i, j, rfl, hij, a, b, ha, hb, hc⟩
      obtain ⟨hj, hbj⟩ := List.getElem?_eq_some_iff.mp hb
      obtain ⟨hi, hai⟩ := List.getElem?_eq_some_iff.mp ha
      have hg := pdist_get l i j hij hj
      refine ⟨cidx l.length i j, ⟨(List.getElem?_eq_some_iff.mp hg).1, ?_⟩, recover_cidx _ _ _ hij hj⟩
      rw [List.getD_eq_getElem?_getD, hg, hai, hbj]
      exact hc

/-- **C13** (empty list).  On an empty list `find_duplicates` raises. -/
theorem find_duplicates_nil : findDuplicates [] = none := rfl

/-- `remove_duplicates` keeps exactly the positions that are not the second member of a close
pair. -/
theorem remove_duplicates_eq (l : List Borehole) (hl : l ≠ []) :
    ∃ r, IsMaxRadius l r ∧ ∃ p : Borehole × ℕ → Bool, (∀ b j, p (b, j) = true ↔ ¬ ∃ i, CloseAt l r i j) ∧
      removeDuplicates l = some ((l.zipIdx.filter p).map (·.1)) := by
  obtain ⟨ps, r, h1, h2, -, h4⟩ := find_duplicates_exact l hl
  refine ⟨r, h2, fun q => decide ((q.2 : ℤ) ∉ ps.map (·.2)), ?_, by simp [removeDuplicates, h1]⟩
  intro b j
  rw [decide_eq_true_eq, not_iff_not, List.mem_map]
  constructor
  · rintro ⟨⟨i, j'⟩, hp, hj⟩
    obtain ⟨i', j'', heq, hc⟩ := (h4 _).mp hp
    simp only [Prod.mk.injEq] at heq hj
    have : j'' = j := by have := heq.2; omega
    exact ⟨i', this ▸ hc⟩
  · rintro ⟨i, hc⟩
    exact ⟨(i, j), (h4 _).mpr ⟨i, j, rfl, hc⟩, rfl⟩

theorem zipIdx_filter_all {α : Type*} (l : List α) (p : α × ℕ → Bool)
    (h : ∀ q ∈ l.zipIdx, p q = true) : (l.zipIdx.filter p).map (·.1) = l := by
  rw [List.filter_eq_self.mpr h]
  exact List.zipIdx_map_fst 0 l

theorem zipIdx_pairwise {α : Type*} (l : List α) : l.zipIdx.Pairwise fun p q => p.2 < q.2 := by
  have h : (l.zipIdx.map (·.2)).Pairwise (· < ·) := by
    have : l.zipIdx.map (·.2) = List.range l.length := by
      rw [List.zipIdx_map_snd, List.range_eq_range']
    rw [this]
    exact List.pairwise_lt_range
  exact List.pairwise_map.mp h

/-- **C14.**  For every non-empty list, `remove_duplicates` returns a sub-list in the original
order that starts with the first borehole and contains no two boreholes closer than the largest
radius of the original list; it removes nothing when there is no such pair; and applying it
again changes nothing. -/
theorem remove_duplicates_spec (l : List Borehole) (hl : l ≠ []) :
    ∃ g r, removeDuplicates l = some g ∧ IsMaxRadius l r ∧ g.Sublist l ∧ g.head? = l.head? ∧
      g.Pairwise (fun a b => ¬ Close r a b) ∧
      (l.Pairwise (fun a b => ¬ Close r a b) → g = l) ∧
      removeDuplicates g = some g := by
  -- a list without close pairs is left unchanged
  have hfix : ∀ (m : List Borehole) (r : ℝ), m ≠ [] → (∀ b ∈ m, b.rb ≤ r) →
      m.Pairwise (fun a b => ¬ Close r a b) → removeDuplicates m = some m := by
    intro m r hm hle hpw
    obtain ⟨s, hs, p, hp, heq⟩ := remove_duplicates_eq m hm
    rw [heq]
    congr 1
    apply zipIdx_filter_all
    rintro ⟨b, j⟩ -
    rw [hp]
    rintro ⟨i, hij, x, y, hx, hy, hc⟩
    obtain ⟨hi, hxi⟩ := List.getElem?_eq_some_iff.mp hx
    obtain ⟨hj, hyj⟩ := List.getElem?_eq_some_iff.mp hy
    have := List.pairwise_iff_getElem.mp hpw i j hi hj hij
    rw [hxi, hyj] at this
    apply this
    obtain ⟨c, hc1, hc2⟩ := hs.1
    exact lt_of_lt_of_le hc (hc2 ▸ hle c hc1)
  obtain ⟨r, hr, p, hp, heq⟩ := remove_duplicates_eq l hl
  set g := (l.zipIdx.filter p).map (·.1) with hg
  have hsub : g.Sublist l := by
    have := (List.filter_sublist (l := l.zipIdx) (p := p)).map (·.1)
    rwa [show l.zipIdx.map (·.1) = l from List.zipIdx_map_fst 0 l] at this
  have hhead : g.head? = l.head? := by
    cases l with
    | nil => exact absurd rfl hl
    | cons b l =>
      have hp0 : p (b, 0) = true := by
        rw [hp]; rintro ⟨i, hi, -⟩; omega
      rw [hg, List.zipIdx_cons, List.filter_cons_of_pos hp0]
      rfl
  have hpw : g.Pairwise (fun a b => ¬ Close r a b) := by
    rw [hg, List.pairwise_map]
    have h1 : (l.zipIdx.filter p).Pairwise fun p q => p.2 < q.2 := (zipIdx_pairwise l).filter p
    refine List.Pairwise.imp_of_mem ?_ h1
    rintro ⟨a, i⟩ ⟨b, j⟩ ha hb hij hc
    rw [List.mem_filter] at ha hb
    refine (hp b j).mp hb.2 ⟨i, hij, a, b, ?_, ?_, hc⟩
    · exact List.mem_zipIdx_iff_getElem?.mp ha.1
    · exact List.mem_zipIdx_iff_getElem?.mp hb.1
  have hgne : g ≠ [] := by
    intro h0
    rw [h0] at hhead
    cases l with
    | nil => exact hl rfl
    | cons b l => simp at hhead
  refine ⟨g, r, heq, hr, hsub, hhead, hpw, ?_, ?_⟩
  · intro hall
    have := hfix l r hl hr.2 hall
    rw [heq] at this
    exact Option.some.inj this
  · exact hfix g r hgne (fun b hb => hr.2 b (hsub.subset hb)) hpw

/-- Specification: position `j` is kept by `remove_duplicates`, i.e. it is not the second member
of a close pair (see `remove_duplicates_eq`). -/
def Kept (l : List Borehole) (r : ℝ) (j : ℕ) : Prop := j < l.length ∧ ¬ ∃ i, CloseAt l r i j

/-- **C15** (violated).  The claim that each removed borehole duplicates a kept one fails for a
chain of three overlapping boreholes: at `x = 0, 0.06, 0.12` with radius `0.075`, only the first
is kept, although the third is `0.12 > 0.075` away from it. -/
theorem removed_not_duplicate_of_kept :
    ∃ a b c : Borehole, removeDuplicates [a, b, c] = some [a] ∧ IsMaxRadius [a, b, c] (0.075) ∧
      ¬ Close (0.075) a c := by
  refine ⟨Borehole.new 100 4 0.075 0 0 0 0, Borehole.new 100 4 0.075 0.06 0 0 0,
    Borehole.new 100 4 0.075 0.12 0 0 0, ?_, ?_, ?_⟩
  · obtain ⟨r, hr, p, hp, heq⟩ := remove_duplicates_eq [Borehole.new 100 4 0.075 0 0 0 0,
      Borehole.new 100 4 0.075 0.06 0 0 0, Borehole.new 100 4 0.075 0.12 0 0 0] (by simp)
    have hr' : r = 0.075 := by
      obtain ⟨⟨b, hb, h1⟩, -⟩ := hr
      simp only [List.mem_cons, List.not_mem_nil, or_false] at hb
      rcases hb with rfl | rfl | rfl <;> exact h1.symm
    subst hr'
    have hs : Real.sqrt ((0.06 : ℝ) ^ 2) < 0.075 := by
      rw [Real.sqrt_sq (by norm_num)]; norm_num
    have h0 : p (Borehole.new 100 4 0.075 0 0 0 0, 0) = true := by
      rw [hp]; rintro ⟨i, hi, -⟩; omega
    have h1 : p (Borehole.new 100 4 0.075 0.06 0 0 0, 1) = false := by
      rw [Bool.eq_false_iff, Ne, hp, not_not]
      refine ⟨0, by omega, _, _, rfl, rfl, ?_⟩
      simp only [Close, Borehole.new]
      rw [show ((0 : ℝ) - 0.06) ^ 2 + (0 - 0) ^ 2 = 0.06 ^ 2 by ring]
      exact hs
    have h2 : p (Borehole.new 100 4 0.075 0.12 0 0 0, 2) = false := by
      rw [Bool.eq_false_iff, Ne, hp, not_not]
      refine ⟨1, by omega, _, _, rfl, rfl, ?_⟩
      simp only [Close, Borehole.new]
      rw [show ((0.06 : ℝ) - 0.12) ^ 2 + (0 - 0) ^ 2 = 0.06 ^ 2 by norm_num]
      exact hs
    rw [heq]
    simp [List.zipIdx_cons, h0, h1, h2]
  · constructor
    · exact ⟨_, List.mem_cons_self, rfl⟩
    · intro b hb
      simp only [List.mem_cons, List.not_mem_nil, or_false] at hb
      rcases hb with rfl | rfl | rfl <;> exact le_refl _
  · simp only [Close, Borehole.new, not_lt]
    rw [show ((0 : ℝ) - 0.12) ^ 2 + (0 - 0) ^ 2 = 0.12 ^ 2 by ring, Real.sqrt_sq (by norm_num)]
    norm_num

/-- **C15** (what holds).  Every removed borehole is linked to a kept borehole that precedes it
by a chain of close boreholes. -/
theorem removed_linked_to_kept_partial (l : List Borehole) (r : ℝ) (j : ℕ) (hj : j < l.length)
    (hrem : ¬ Kept l r j) :
    ∃ i, i < j ∧ Kept l r i ∧ Relation.TransGen (CloseAt l r) i j := by
  induction j using Nat.strong_induction_on with
  | _ j ih =>
    simp only [Kept, hj, true_and, not_not] at hrem
    obtain ⟨i, hij⟩ := hrem
    have hilt : i < l.length := lt_trans hij.1 hj
    by_cases hk : Kept l r i
    · exact ⟨i, hij.1, hk, Relation.TransGen.single hij⟩
    · obtain ⟨i', h1, h2, h3⟩ := ih i hij.1 hilt hk
      exact ⟨i', lt_trans h1 hij.1, h2, h3.tail hij⟩

/-- **C15** (what holds).  When closeness is transitive on the list (no overlapping chains),
every removed borehole is close to a kept one. -/
theorem removed_duplicate_of_kept_partial (l : List Borehole) (r : ℝ)
    (htrans : ∀ i j k, CloseAt l r i j → CloseAt l r j k → CloseAt l r i k)
    (j : ℕ) (hj : j < l.length) (hrem : ¬ Kept l r j) : ∃ i, Kept l r i ∧ CloseAt l r i j := by
  obtain ⟨i, -, hk, hc⟩ := removed_linked_to_kept_partial l r j hj hrem
  refine ⟨i, hk, ?_⟩
  clear hrem hj
  induction hc with
  | single h => exact h
  | tail _ h2 ih => exact htrans _ _ _ ih h2

/-- Non-vacuity: on a list of two coincident boreholes closeness is transitive and the second
one is removed. -/
example : let l := [Borehole.new 100 4 0.075 1 2 0 0, Borehole.new 100 4 0.075 1 2 0 0]
    (∀ i j k, CloseAt l 0.075 i j → CloseAt l 0.075 j k → CloseAt l 0.075 i k) ∧ ¬ Kept l 0.075 1 := by
  intro l
  refine ⟨?_, ?_⟩
  · rintro i j k ⟨h1, a, b, ha, hb, -⟩ ⟨h2, c, d, hc, hd, -⟩
    have := (List.getElem?_eq_some_iff.mp hd).1
    simp [l] at this
    omega
  · rintro ⟨-, h⟩
    apply h
    refine ⟨0, by omega, _, _, rfl, rfl, ?_⟩
    norm_num [Close]

end Verif.Bore
