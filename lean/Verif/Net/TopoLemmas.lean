import Verif.Net.TopoModel
import Mathlib.Data.Fintype.Card
import Mathlib.Data.List.Nodup
import Mathlib.Data.List.Count
import Mathlib.Data.List.Dedup
import Mathlib.Data.List.Perm.Subperm

/-! # Lemmas on network topologies -/

namespace Verif.Net

/-- Specification: going upstream `d` times from borehole `i` leads to borehole `r`, which is fed
by the network inlet. -/
inductive Up (c : List ℤ) : ℕ → ℕ → ℕ → Prop
  | inlet (i : ℕ) : c[i]? = some (-1) → Up c 0 i i
  | step (d i j r : ℕ) : c[i]? = some (j : ℤ) → Up c d j r → Up c (d + 1) i r

/-- Specification of a valid connectivity list for `n` boreholes. -/
structure Valid (n : ℕ) (c : List ℤ) : Prop where
  pos : 0 < n
  len : c.length = n
  entries : ∀ v ∈ c, v = -1 ∨ ∃ j : ℕ, j < n ∧ v = j
  inj : ∀ i j : ℕ, i < n → j < n → i ≠ j → c[i]? = c[j]? → c[i]? = some (-1)
  reach : ∀ i : ℕ, i < n → ∃ d r, Up c d i r

theorem Up.lt {c : List ℤ} {d i r : ℕ} (h : Up c d i r) : i < c.length := by
  cases h with
  | inlet _ h => exact (List.getElem?_eq_some_iff.mp h).1
  | step _ _ _ _ h _ => exact (List.getElem?_eq_some_iff.mp h).1

theorem Up.root_lt {c : List ℤ} {d i r : ℕ} (h : Up c d i r) : r < c.length := by
  induction h with
  | inlet i h => exact (List.getElem?_eq_some_iff.mp h).1
  | step _ _ _ _ _ _ ih => exact ih

theorem Up.root_inlet {c : List ℤ} {d i r : ℕ} (h : Up c d i r) : c[r]? = some (-1) := by
  induction h with
  | inlet i h => exact h
  | step _ _ _ _ _ _ ih => exact ih

theorem Up.det {c : List ℤ} {d i r : ℕ} (h : Up c d i r) :
    ∀ {d' r' : ℕ}, Up c d' i r' → d = d' ∧ r = r' := by
  induction h with
  | inlet i h =>
    intro d' r' h'
    cases h' with
    | inlet _ _ => exact ⟨rfl, rfl⟩
    | step d _ j _ hj _ =>
      rw [h] at hj; simp only [Option.some.injEq] at hj; omega
  | step d i j r hj _ ih =>
    intro d' r' h'
    cases h' with
    | inlet _ h => rw [h] at hj; simp only [Option.some.injEq] at hj; omega
    | step d2 _ j2 _ hj2 h2 =>
      rw [hj] at hj2
      simp only [Option.some.injEq, Nat.cast_inj] at hj2
      subst hj2
      obtain ⟨a, b⟩ := ih h2
      exact ⟨by omega, b⟩

/-- There is a borehole at every smaller depth. -/
theorem Up.exists_depth {c : List ℤ} {d i r : ℕ} (h : Up c d i r) :
    ∀ k, k ≤ d → ∃ j, Up c k j r := by
  induction h with
  | inlet i h => intro k hk; exact ⟨i, by rw [Nat.le_zero.mp hk]; exact Up.inlet i h⟩
  | step d i j r hj h ih =>
    intro k hk
    by_cases hk' : k ≤ d
    · exact ih k hk'
    · exact ⟨i, by rw [show k = d + 1 by omega]; exact Up.step d i j r hj h⟩

/-- The depth is less than the number of boreholes. -/
theorem Up.depth_lt {c : List ℤ} {d i r : ℕ} (h : Up c d i r) : d < c.length := by
  choose f hf using fun k : Fin (d + 1) => h.exists_depth k (by omega)
  have hlt : ∀ k, f k < c.length := fun k => (hf k).lt
  have hinj : Function.Injective (fun k : Fin (d + 1) => (⟨f k, hlt k⟩ : Fin c.length)) := by
    intro a b hab
    simp only [Fin.mk.injEq] at hab
    have h1 := hf a
    rw [hab] at h1
    exact Fin.ext (h1.det (hf b)).1
  have := Fintype.card_le_of_injective _ hinj
  simp only [Fintype.card_fin] at this
  omega

theorem pyGet_nat (c : List ℤ) (i : ℕ) (v : ℤ) : pyGet c i = .ok v ↔ c[i]? = some v := by
  unfold pyGet
  rw [if_pos (Int.natCast_nonneg i)]
  simp only [Int.toNat_natCast]
  cases c[i]? <;> simp

theorem walk_of_up {c : List ℤ} {d i r : ℕ} (h : Up c d i r) :
    ∀ fuel, d < fuel → walk c fuel i = .ok () := by
  induction h with
  | inlet i h =>
    intro fuel hf
    obtain ⟨f, rfl⟩ : ∃ f, fuel = f + 1 := ⟨fuel - 1, by omega⟩
    unfold walk
    rw [if_neg (by omega), (pyGet_nat c i (-1)).mpr h]
    simp only
    unfold walk
    rw [if_pos rfl]
  | step d i j r hj _ ih =>
    intro fuel hf
    obtain ⟨f, rfl⟩ : ∃ f, fuel = f + 1 := ⟨fuel - 1, by omega⟩
    unfold walk
    rw [if_neg (by omega), (pyGet_nat c i j).mpr hj]
    exact ih f (by omega)

theorem up_of_walk {c : List ℤ} (hent : ∀ v ∈ c, v = -1 ∨ ∃ j : ℕ, j < c.length ∧ v = j) :
    ∀ (fuel i : ℕ), walk c fuel i = .ok () → ∃ d r, Up c d i r := by
  intro fuel
  induction fuel with
  | zero =>
    intro i h
    unfold walk at h
    rw [if_neg (by omega)] at h
    cases hp : pyGet c i <;> rw [hp] at h <;> simp at h
  | succ f ih =>
    intro i h
    unfold walk at h
    rw [if_neg (by omega)] at h
    cases hp : pyGet c i with
    | error e => rw [hp] at h; simp at h
    | ok v =>
      rw [hp] at h
      simp only at h
      have hv := (pyGet_nat c i v).mp hp
      rcases hent v (List.mem_of_getElem? hv) with rfl | ⟨j, -, rfl⟩
      · exact ⟨0, i, Up.inlet i hv⟩
      · obtain ⟨d, r, hu⟩ := ih j h
        exact ⟨d + 1, r, Up.step d i j r hv hu⟩

theorem pathLoop_of_up {c : List ℤ} {d i r : ℕ} (h : Up c d i r) :
    ∀ fuel path, d < fuel → ∃ p, pathLoop c fuel path i = .ok p ∧ p.getLast? = some (r : ℤ) := by
  induction h with
  | inlet i h =>
    intro fuel path hf
    obtain ⟨f, rfl⟩ : ∃ f, fuel = f + 1 := ⟨fuel - 1, by omega⟩
    refine ⟨path ++ [(i : ℤ)], ?_, by simp⟩
    unfold pathLoop
    rw [if_neg (by omega), (pyGet_nat c i (-1)).mpr h]
    simp only
    unfold pathLoop
    rw [if_pos rfl]
  | step d i j r hj _ ih =>
    intro fuel path hf
    obtain ⟨f, rfl⟩ : ∃ f, fuel = f + 1 := ⟨fuel - 1, by omega⟩
    obtain ⟨p, hp, hl⟩ := ih f (path ++ [(i : ℤ)]) (by omega)
    refine ⟨p, ?_, hl⟩
    unfold pathLoop
    rw [if_neg (by omega), (pyGet_nat c i j).mpr hj]
    exact hp

theorem pathToInlet_of_up {c : List ℤ} {d i r : ℕ} (h : Up c d i r) (fuel : ℕ) (hf : d ≤ fuel) :
    ∃ p, pathToInlet c fuel i = .ok p ∧ p.getLast? = some (r : ℤ) := by
  unfold pathToInlet
  cases h with
  | inlet _ h =>
    rw [(pyGet_nat c i (-1)).mpr h]
    refine ⟨[(i : ℤ)], ?_, rfl⟩
    simp only
    unfold pathLoop
    rw [if_pos rfl]
  | step d _ j _ hj h =>
    rw [(pyGet_nat c i j).mpr hj]
    exact pathLoop_of_up h fuel [(i : ℤ)] (by omega)

theorem inletList_mem {n : ℕ} {c : List ℤ} (i : ℕ) :
    i ∈ inletList n c ↔ i < n ∧ c[i]? = some (-1) := by
  simp [inletList]

theorem outletList_mem {n : ℕ} {c : List ℤ} (i : ℕ) :
    i ∈ outletList n c ↔ i < n ∧ (i : ℤ) ∉ c := by
  simp [outletList]

theorem inletList_nodup (n : ℕ) (c : List ℤ) : (inletList n c).Nodup := List.nodup_range.filter _
theorem outletList_nodup (n : ℕ) (c : List ℤ) : (outletList n c).Nodup := List.nodup_range.filter _

theorem pyIndex_of_mem (l : List ℕ) (a : ℕ) (h : a ∈ l) :
    ∃ k, pyIndex l (a : ℤ) = .ok k ∧ l[k]? = some a := by
  unfold pyIndex
  cases hf : l.findIdx? (fun b : ℕ => (b : ℤ) = (a : ℤ)) with
  | none =>
    rw [List.findIdx?_eq_none_iff] at hf
    have := hf a h
    simp at this
  | some k =>
    rw [List.findIdx?_eq_some_iff_getElem] at hf
    obtain ⟨hk, hp, -⟩ := hf
    refine ⟨k, rfl, ?_⟩
    rw [List.getElem?_eq_getElem hk]
    simp only [decide_eq_true_eq, Nat.cast_inj] at hp
    rw [hp]

theorem circuitOf_of_up {n : ℕ} {c : List ℤ} (hlen : c.length = n) {d i r : ℕ} (h : Up c d i r) :
    ∃ k, circuitOf n c i = .ok k ∧ (inletList n c)[k]? = some r := by
  obtain ⟨p, hp, hl⟩ := pathToInlet_of_up h n (by have := h.depth_lt; omega)
  obtain ⟨k, hk, hr⟩ := pyIndex_of_mem (inletList n c) r
    ((inletList_mem r).mpr ⟨hlen ▸ h.root_lt, h.root_inlet⟩)
  refine ⟨k, ?_, hr⟩
  unfold circuitOf
  rw [hp]
  simp only [hl]
  exact hk

theorem circuits_spec {n : ℕ} {c : List ℤ} (l : List ℕ) (g : ℕ → ℕ)
    (h : ∀ i ∈ l, circuitOf n c i = .ok (g i)) : circuits n c l = .ok (l.map g) := by
  induction l with
  | nil => rfl
  | cons i l ih =>
    unfold circuits
    rw [h i List.mem_cons_self, ih fun j hj => h j (List.mem_cons_of_mem _ hj)]
    rfl

theorem verifyLoop_ok_iff {n : ℕ} {c : List ℤ} (l : List ℤ) :
    verifyLoop n c l = .ok () ↔ ∀ i ∈ l, (i ≠ -1 → c.count i ≤ 1) ∧ walk c n i = .ok () := by
  induction l with
  | nil => simp [verifyLoop]
  | cons i l ih =>
    unfold verifyLoop
    by_cases hc : i ≠ -1 ∧ c.count i > 1
    · rw [if_pos hc]
      simp only [reduceCtorEq, false_iff]
      intro h
      have := (h i List.mem_cons_self).1 hc.1
      omega
    · rw [if_neg hc]
      cases hw : walk c n i with
      | error e =>
        simp only [reduceCtorEq, false_iff]
        intro h
        have := (h i List.mem_cons_self).2
        rw [hw] at this
        simp at this
      | ok u =>
        simp only [ih, List.mem_cons, forall_eq_or_imp, hw, and_true]
        constructor
        · intro h
          exact ⟨fun h1 => by
            by_contra h2
            exact hc ⟨h1, by omega⟩, h⟩
        · exact fun h => h.2

theorem foldl_max_le (l : List ℤ) (a m : ℤ) : l.foldl max a ≤ m ↔ a ≤ m ∧ ∀ v ∈ l, v ≤ m := by
  induction l generalizing a with
  | nil => simp
  | cons b l ih =>
    rw [List.foldl_cons, ih, max_le_iff]
    simp only [List.mem_cons, forall_eq_or_imp]
    tauto

theorem verify_ok_iff (n : ℕ) (c : List ℤ) :
    verify n c = .ok () ↔ c.length = n ∧ 0 < n ∧ (∀ v ∈ c, v < n) ∧
      ∀ i ∈ c, (i ≠ -1 → c.count i ≤ 1) ∧ walk c n i = .ok () := by
  unfold verify
  by_cases hl : c.length = n
  · rw [if_neg (not_not.mpr hl)]
    cases c with
    | nil =>
      simp only [List.length_nil] at hl
      simp [pyMax]; omega
    | cons a l =>
      have hpos : 0 < n := by rw [← hl]; simp
      simp only [pyMax]
      have hm := foldl_max_le l a ((n : ℤ) - 1)
      by_cases hge : l.foldl max a ≥ (n : ℤ)
      · rw [if_pos hge]
        simp only [reduceCtorEq, false_iff]
        rintro ⟨-, -, h, -⟩
        have h2 := hm.mpr ⟨by have := h a List.mem_cons_self; omega,
          fun v hv => by have := h v (List.mem_cons_of_mem _ hv); omega⟩
        omega
      · rw [if_neg hge, verifyLoop_ok_iff]
        have h2 := hm.mp (by omega)
        constructor
        · intro h
          refine ⟨hl, hpos, ?_, h⟩
          intro v hv
          rcases List.mem_cons.mp hv with rfl | hv
          · omega
          · have := h2.2 v hv; omega
        · exact fun h => h.2.2.2
  · rw [if_pos hl]
    simp only [reduceCtorEq, false_iff]
    exact fun h => hl h.1

/-- The number of outlets counts the entries that are not indices of boreholes. -/
theorem outlet_count {n : ℕ} {c : List ℤ} (hlen : c.length = n) (hlt : ∀ v ∈ c, v < n)
    (hcount : ∀ v ∈ c, v ≠ -1 → c.count v ≤ 1) :
    (outletList n c).length + (c.filter fun v => 0 ≤ v).length = n := by
  -- the non-negative entries and the indices that occur are the same set without repetition
  have hperm : ((List.range n).filter fun i : ℕ => (i : ℤ) ∈ c).Perm
      ((c.filter fun v => 0 ≤ v).map Int.toNat) := by
    rw [List.perm_ext_iff_of_nodup (List.nodup_range.filter _)]
    · intro a
      simp only [List.mem_filter, List.mem_range, decide_eq_true_eq, List.mem_map]
      constructor
      · rintro ⟨-, h⟩
        exact ⟨a, ⟨h, by omega⟩, by omega⟩
      · rintro ⟨v, ⟨hv, h0⟩, rfl⟩
        have := hlt v hv
        refine ⟨by omega, ?_⟩
        rw [Int.toNat_of_nonneg h0]; exact hv
    · rw [List.nodup_map_iff_inj_on]
      · intro a ha b hb hab
        simp only [List.mem_filter, decide_eq_true_eq] at ha hb
        omega
      · rw [List.nodup_iff_count_le_one]
        intro v
        by_cases hv : v ∈ c.filter fun v => 0 ≤ v
        · have hm := List.mem_filter.mp hv
          have h0 : 0 ≤ v := by simpa using hm.2
          exact (List.filter_sublist.count_le v).trans (hcount v hm.1 (by omega))
        · rw [List.count_eq_zero_of_not_mem hv]; omega
  have h1 := hperm.length_eq
  rw [List.length_map] at h1
  rw [← h1, outletList]
  have h2 := List.length_eq_length_filter_add (l := List.range n) (fun i : ℕ => decide ((i : ℤ) ∈ c))
  rw [List.length_range] at h2
  have h3 : ((List.range n).filter fun i : ℕ => decide ((i : ℤ) ∉ c))
      = (List.range n).filter fun i : ℕ => !decide ((i : ℤ) ∈ c) := by
    apply List.filter_congr
    intro i _
    simp
  rw [h3]
  omega

theorem count_neg_one (c : List ℤ) : c.count (-1) = (c.filter fun v => v = -1).length := by
  rw [List.count_eq_countP, List.countP_eq_length_filter]
  congr 1

/-- Entries below `-1` leave more outlets than inlets. -/
theorem entries_of_counts {n : ℕ} {c : List ℤ} (hlen : c.length = n) (hlt : ∀ v ∈ c, v < n)
    (hcount : ∀ v ∈ c, v ≠ -1 → c.count v ≤ 1) (heq : c.count (-1) = (outletList n c).length) :
    ∀ v ∈ c, v = -1 ∨ ∃ j : ℕ, j < n ∧ v = j := by
  have h1 := outlet_count hlen hlt hcount
  rw [← heq, count_neg_one] at h1
  have h2 : (c.filter fun v => ¬ (v = -1 ∨ 0 ≤ v)).length = 0 := by
    have e1 := List.length_eq_length_filter_add (l := c) (fun v => decide (v = -1 ∨ 0 ≤ v))
    have e2 := List.length_eq_length_filter_add (l := c.filter fun v => decide (v = -1 ∨ 0 ≤ v))
      (fun v => decide (v = -1))
    rw [List.filter_filter, List.filter_filter] at e2
    have e3 : (c.filter fun a => decide (a = -1) && decide (a = -1 ∨ 0 ≤ a)) = c.filter fun v => v = -1 := by
      apply List.filter_congr
      intro v _
      by_cases hv : v = -1 <;> simp [hv]
    have e4 : (c.filter fun a => !decide (a = -1) && decide (a = -1 ∨ 0 ≤ a)) = c.filter fun v => 0 ≤ v := by
      apply List.filter_congr
      intro v _
      by_cases hv : v = -1
      · simp [hv]
      · simp [hv]
    rw [e3, e4] at e2
    have e5 : (c.filter fun v => decide ¬ (v = -1 ∨ 0 ≤ v)) = c.filter fun v => !decide (v = -1 ∨ 0 ≤ v) := by
      apply List.filter_congr
      intro v _
      by_cases hv : v = -1 ∨ 0 ≤ v <;> simp only [hv, not_true, not_false_iff, decide_true, decide_false, Bool.not_true, Bool.not_false]
    rw [e5]
    omega
  rw [List.length_eq_zero_iff, List.filter_eq_nil_iff] at h2
  intro v hv
  have h3 := h2 v hv
  simp only [decide_eq_true_eq, not_not] at h3
  rcases h3 with h | h
  · exact Or.inl h
  · right
    have := hlt v hv
    exact ⟨v.toNat, by omega, by omega⟩

theorem circuits_error {n : ℕ} {c : List ℤ} (l : List ℕ) (ks : List ℕ) (h : circuits n c l = .ok ks) :
    ks.length = l.length ∧ ∀ j (hj : j < l.length), ∃ k, circuitOf n c l[j] = .ok k ∧ ks[j]? = some k := by
  induction l generalizing ks with
  | nil => unfold circuits at h; simp only [Except.ok.injEq] at h; subst h; simp
  | cons i l ih =>
    unfold circuits at h
    cases hc : circuitOf n c i with
    | error e => rw [hc] at h; simp at h
    | ok k =>
      rw [hc] at h
      simp only at h
      cases hr : circuits n c l with
      | error e => rw [hr] at h; simp at h
      | ok ks' =>
        rw [hr] at h
        simp only [Except.ok.injEq] at h
        subst h
        obtain ⟨h1, h2⟩ := ih ks' hr
        refine ⟨by simp [h1], ?_⟩
        intro j hj
        cases j with
        | zero => exact ⟨k, hc, rfl⟩
        | succ j =>
          obtain ⟨k', a, b⟩ := h2 j (by simpa using hj)
          exact ⟨k', by simpa using a, by simpa using b⟩

end Verif.Net
