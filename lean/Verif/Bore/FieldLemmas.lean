import Verif.Bore.FieldModel
import Verif.Bore.SegmentsProps

noncomputable section

namespace Verif.Bore

open ArrayLike

theorem broadcast_length {α : Type} (a : ArrayLike α) (n : ℕ) (l : List α)
    (h : a.broadcastTo n = some l) : l.length = n := by
  cases a with
  | scalar v => simp only [broadcastTo, Option.some.injEq] at h; simp [← h]
  | array m =>
    rw [broadcastTo] at h
    by_cases hm : m.length = n
    · rw [if_pos hm] at h; simp only [Option.some.injEq] at h; rw [← h, hm]
    · rw [if_neg hm] at h
      rcases m with _ | ⟨v, _ | ⟨w, m⟩⟩ <;> simp [stretch] at h
      simp [← h]

theorem broadcast_map {α β : Type} (f : α → β) (a : ArrayLike α) (n : ℕ) (l : List α)
    (h : a.broadcastTo n = some l) : (a.map f).broadcastTo n = some (l.map f) := by
  cases a with
  | scalar v =>
    simp only [broadcastTo, Option.some.injEq] at h
    simp [ArrayLike.map, broadcastTo, ← h]
  | array m =>
    simp only [ArrayLike.map]
    rw [broadcastTo] at h ⊢
    rw [List.length_map]
    by_cases hm : m.length = n
    · rw [if_pos hm] at h ⊢; simp only [Option.some.injEq] at h; rw [← h]
    · rw [if_neg hm] at h ⊢
      rcases m with _ | ⟨v, _ | ⟨w, m⟩⟩ <;> simp [stretch] at h
      simp [stretch, ← h]

theorem broadcast_array {α : Type} (l : List α) (n : ℕ) (h : l.length = n) :
    (array l).broadcastTo n = some l := by rw [broadcastTo, if_pos h]

/-- Masking of orientations of vertical boreholes. -/
def mask (o t : List ℝ) : List ℝ := List.zipWith (fun v t => if tilted t then v else 0) o t

theorem mask_none (o t : List ℝ) (h : o.length = t.length) (ht : ∀ v ∈ t, ¬ tilted v) :
    mask o t = List.replicate t.length 0 := by
  induction t generalizing o with
  | nil => simp [mask]
  | cons v t ih =>
    cases o with
    | nil => simp at h
    | cons w o =>
      have := ih o (by simpa using h) (fun u hu => ht u (by simp [hu]))
      simp only [mask] at this
      simp only [mask, List.zipWith_cons_cons, this, List.length_cons, List.replicate_succ]
      rw [if_neg (ht v (by simp))]

theorem mask_all (o t : List ℝ) (h : o.length = t.length) (ht : ∀ v ∈ t, tilted v) :
    mask o t = o := by
  induction t generalizing o with
  | nil => simp at h; simp [mask, h]
  | cons v t ih =>
    cases o with
    | nil => simp at h
    | cons w o =>
      have := ih o (by simpa using h) (fun u hu => ht u (by simp [hu]))
      simp only [mask] at this
      simp only [mask, List.zipWith_cons_cons, this]
      rw [if_pos (ht v (by simp))]

theorem fieldOrientation_eq (orient : ArrayLike ℝ) (t : List ℝ) (n : ℕ) (hn : t.length = n)
    (res : List ℝ)
    (h : fieldOrientation orient (t.map fun v => decide (tilted v)) n = some res) :
    (∀ v ∈ t, ¬ tilted v) ∧ res = List.replicate n 0 ∨
      ∃ o, orient.broadcastTo n = some o ∧ res = mask o t := by
  unfold fieldOrientation at h
  by_cases h1 : ¬ (t.map fun v => decide (tilted v)).any id = true
  · rw [if_pos h1] at h
    left
    refine ⟨?_, ?_⟩
    · intro v hv hvt
      apply h1
      rw [List.any_eq_true]
      exact ⟨true, List.mem_map.mpr ⟨v, hv, by simpa using hvt⟩, rfl⟩
    · simp only [broadcastTo, Option.some.injEq] at h; exact h.symm
  · rw [if_neg h1] at h
    right
    by_cases h2 : (t.map fun v => decide (tilted v)).all id = true
    · rw [if_pos h2] at h
      refine ⟨res, h, ?_⟩
      rw [List.all_eq_true] at h2
      rw [mask_all _ _ (by rw [broadcast_length _ _ _ h, hn])]
      intro v hv
      simpa using h2 _ (List.mem_map.mpr ⟨v, hv, rfl⟩)
    · rw [if_neg h2] at h
      simp only [maskOrientation, List.length_map, hn] at h
      cases ho : orient.broadcastTo n with
      | none => rw [ho] at h; simp at h
      | some o =>
        rw [ho] at h
        simp only [Option.map_some, Option.some.injEq] at h
        refine ⟨o, rfl, ?_⟩
        rw [← h, mask, List.zipWith_map_right]
        congr 1
        funext v w
        by_cases hw : tilted w <;> simp [hw]

theorem fieldOrientation_array (o t : List ℝ) (n : ℕ) (hn : t.length = n) (ho : o.length = n) :
    fieldOrientation (array o) (t.map fun v => decide (tilted v)) n = some (mask o t) := by
  cases h : fieldOrientation (array o) (t.map fun v => decide (tilted v)) n with
  | none =>
    exfalso
    unfold fieldOrientation maskOrientation at h
    rw [broadcast_array o n ho, List.length_map, hn, broadcast_array o n ho] at h
    split_ifs at h <;> simp [broadcastTo] at h
  | some res =>
    rcases fieldOrientation_eq _ _ _ hn _ h with ⟨h1, h2⟩ | ⟨o', h1, h2⟩
    · rw [h2, mask_none o t (by omega) h1, hn]
    · rw [broadcast_array o n ho] at h1
      simp only [Option.some.injEq] at h1
      rw [h2, h1]

theorem new_arrays (n : ℕ) (H D rb x y t o : List ℝ) (hH : H.length = n) (hD : D.length = n)
    (hr : rb.length = n) (hx : x.length = n) (hy : y.length = n) (ht : t.length = n)
    (ho : o.length = n) :
    Borefield.new (array H) (array D) (array rb) (array x) (array y) (array t) (array o)
      = some ⟨n, H, D, rb, x, y, t, mask o t⟩ := by
  unfold Borefield.new
  simp only [atleast1d, hx, hy, max_self, broadcast_array _ n hH, broadcast_array _ n hD,
    broadcast_array _ n hr, broadcast_array _ n hx, broadcast_array _ n hy,
    broadcast_array _ n ht, ArrayLike.map,
    broadcast_array (t.map fun v => decide (tilted v)) n (by simpa using ht),
    fieldOrientation_array o t n ht ho, Option.bind_eq_bind, Option.bind_some]

theorem pyGet_nat {α : Type} (l : List α) (k : ℕ) : pyGet l (k : ℤ) = l[k]? := by
  simp [pyGet]

/-- All arrays of a borefield have the same length. -/
structure Borefield.Lengths (f : Borefield) : Prop where
  H : f.H.length = f.nBoreholes
  D : f.D.length = f.nBoreholes
  rb : f.rb.length = f.nBoreholes
  x : f.x.length = f.nBoreholes
  y : f.y.length = f.nBoreholes
  tilt : f.tilt.length = f.nBoreholes
  orientation : f.orientation.length = f.nBoreholes

theorem getItem_nat (f : Borefield) (hf : f.Lengths) (k : ℕ) (hk : k < f.nBoreholes) :
    f.getItem k = some (Borehole.new (f.H.getD k 0) (f.D.getD k 0) (f.rb.getD k 0) (f.x.getD k 0)
      (f.y.getD k 0) (f.tilt.getD k 0) (f.orientation.getD k 0)) := by
  have hg : ∀ l : List ℝ, l.length = f.nBoreholes → pyGet l (k : ℤ) = some (l.getD k 0) := by
    intro l hl
    rw [pyGet_nat, List.getElem?_eq_getElem (by omega), List.getD_eq_getElem _ _ (by omega)]
  simp only [Borefield.getItem, hg _ hf.H, hg _ hf.D, hg _ hf.rb, hg _ hf.x, hg _ hf.y,
    hg _ hf.tilt, hg _ hf.orientation, Option.bind_eq_bind, Option.bind_some]

theorem toBoreholes_eq (f : Borefield) (hf : f.Lengths) :
    f.toBoreholes = (List.range f.nBoreholes).map fun k : ℕ =>
      Borehole.new (f.H.getD k 0) (f.D.getD k 0) (f.rb.getD k 0) (f.x.getD k 0)
        (f.y.getD k 0) (f.tilt.getD k 0) (f.orientation.getD k 0) := by
  rw [Borefield.toBoreholes, ← List.filterMap_eq_map]
  apply List.filterMap_congr
  intro k hk
  exact getItem_nat f hf k (List.mem_range.mp hk)

theorem map_getD_range (l : List ℝ) (n : ℕ) (h : l.length = n) :
    (List.range n).map (fun k : ℕ => l.getD k 0) = l := by
  subst h
  apply List.ext_getElem
  · simp
  · intro i h1 h2
    simp [List.getElem?_eq_getElem h2]

theorem mask_getD (o t : List ℝ) (h : o.length = t.length) (k : ℕ) :
    (mask o t).getD k 0 = if tilted (t.getD k 0) then o.getD k 0 else 0 := by
  by_cases hk : k < t.length
  · rw [List.getD_eq_getElem _ _ (by simp [mask]; omega), List.getD_eq_getElem t _ hk,
      List.getD_eq_getElem o _ (by omega)]
    simp [mask]
  · rw [List.getD_eq_default _ _ (by simp [mask]; omega), List.getD_eq_default o _ (by omega)]
    simp

end Verif.Bore
