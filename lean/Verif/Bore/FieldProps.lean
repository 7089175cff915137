import Verif.Bore.FieldLemmas
import Mathlib.Data.List.Monad

/-!
# Properties C16 and C55: `Borefield` and lists of boreholes
-/

noncomputable section

namespace Verif.Bore

open ArrayLike

/-- Specification of a consistent borefield: all arrays have one entry per borehole and vertical
boreholes have orientation zero. -/
structure Borefield.WF (f : Borefield) : Prop extends f.Lengths where
  vertical : ∀ k < f.nBoreholes, ¬ tilted (f.tilt.getD k 0) → f.orientation.getD k 0 = 0

/-- Specification: the value that an argument gives to borehole `k`. -/
def valueAt : ArrayLike ℝ → ℕ → ℝ
  | .scalar v, _ => v
  | .array [v], _ => v
  | .array l, k => l.getD k 0

theorem broadcast_valueAt (a : ArrayLike ℝ) (n : ℕ) (l : List ℝ) (h : a.broadcastTo n = some l)
    (k : ℕ) (hk : k < n) : l.getD k 0 = valueAt a k := by
  have hl := broadcast_length a n l h
  cases a with
  | scalar v =>
    simp only [broadcastTo, Option.some.injEq] at h
    subst h
    rw [List.getD_eq_getElem _ _ (by simpa using hk)]
    simp [valueAt]
  | array m =>
    rw [broadcastTo] at h
    by_cases hm : m.length = n
    · rw [if_pos hm] at h
      simp only [Option.some.injEq] at h
      subst h
      rcases m with _ | ⟨v, _ | ⟨w, m⟩⟩
      · rfl
      · have : k = 0 := by simp at hm; omega
        subst this; rfl
      · rfl
    · rw [if_neg hm] at h
      rcases m with _ | ⟨v, _ | ⟨w, m⟩⟩ <;> simp only [stretch, reduceCtorEq, Option.some.injEq] at h
      subst h
      rw [List.getD_eq_getElem _ _ (by simpa using hk)]
      simp [valueAt]

/-- **C16** (constructor).  A `Borefield` that is successfully constructed is consistent, and its
`k`-th borehole is the `Borehole` constructed from the `k`-th values of the arguments. -/
theorem borefield_new_spec (H D rb x y tilt orient : ArrayLike ℝ) (f : Borefield)
    (h : Borefield.new H D rb x y tilt orient = some f) :
    f.WF ∧ f.nBoreholes = max x.atleast1d.length y.atleast1d.length ∧
      f.toBoreholes = (List.range f.nBoreholes).map fun k : ℕ =>
        Borehole.new (valueAt H k) (valueAt D k) (valueAt rb k) (valueAt x k) (valueAt y k)
          (valueAt tilt k) (valueAt orient k) := by
  unfold Borefield.new at h
  simp only [Option.bind_eq_bind, Option.bind_eq_some_iff, Option.some.injEq] at h
  obtain ⟨H', hH, D', hD, rb', hrb, x', hx, y', hy, t', ht, it, hit, o', ho, hf⟩ := h
  rw [broadcast_map _ _ _ _ ht] at hit
  simp only [Option.some.injEq] at hit
  subst hit
  obtain ⟨n, hn⟩ : ∃ n, n = max x.atleast1d.length y.atleast1d.length := ⟨_, rfl⟩
  rw [← hn] at hH hD hrb hx hy ht ho hf
  subst hf
  have lt := broadcast_length _ _ _ ht
  have hor := fieldOrientation_eq _ _ _ lt _ ho
  have lo : o'.length = n := by
    rcases hor with ⟨-, h2⟩ | ⟨o, h1, h2⟩
    · simp [h2]
    · have := broadcast_length _ _ _ h1
      simp [h2, mask, lt, this]
  have hL : Borefield.Lengths ⟨n, H', D', rb', x', y', t', o'⟩ :=
    ⟨broadcast_length _ _ _ hH, broadcast_length _ _ _ hD, broadcast_length _ _ _ hrb,
      broadcast_length _ _ _ hx, broadcast_length _ _ _ hy, lt, lo⟩
  have hok : ∀ k < n, o'.getD k 0 = if tilted (t'.getD k 0) then valueAt orient k else 0 := by
    intro k hk
    rcases hor with ⟨h1, h2⟩ | ⟨o, h1, h2⟩
    · rw [h2, List.getD_eq_getElem _ _ (by simpa using hk), List.getD_eq_getElem _ _ (by omega),
        if_neg (h1 _ (List.getElem_mem _))]
      simp
    · rw [h2, mask_getD o t' (by rw [broadcast_length _ _ _ h1, lt]),
        broadcast_valueAt _ _ _ h1 k hk]
  refine ⟨⟨hL, ?_⟩, hn, ?_⟩
  · intro k hk hv
    rw [hok k hk, if_neg hv]
  · rw [toBoreholes_eq _ hL]
    apply List.map_congr_left
    intro k hk
    have hk' : k < n := List.mem_range.mp hk
    have e : ∀ (a : ArrayLike ℝ), valueAt (array a.atleast1d) k = valueAt a k := by
      intro a; cases a <;> rfl
    simp only [hok k hk', broadcast_valueAt _ _ _ hH k hk', broadcast_valueAt _ _ _ hD k hk',
      broadcast_valueAt _ _ _ hrb k hk', broadcast_valueAt _ _ _ hx k hk',
      broadcast_valueAt _ _ _ hy k hk', broadcast_valueAt _ _ _ ht k hk', e]
    unfold Borehole.new
    split_ifs <;> rfl

theorem mask_self (o t : List ℝ) (h : o.length = t.length)
    (hv : ∀ k < t.length, ¬ tilted (t.getD k 0) → o.getD k 0 = 0) : mask o t = o := by
  apply List.ext_getElem
  · simp [mask, h]
  · intro k h1 h2
    have := mask_getD o t h k
    rw [List.getD_eq_getElem _ _ h1] at this
    rw [this, ← List.getD_eq_getElem o 0 h2]
    split_ifs with ht
    · rfl
    · exact (hv k (by omega) ht).symm

/-- **C16** (round trip).  A consistent borefield converted to a list and back is unchanged. -/
theorem borefield_roundtrip (f : Borefield) (hf : f.WF) :
    Borefield.fromBoreholes f.toBoreholes = some f := by
  have hL := hf.toLengths
  rw [toBoreholes_eq f hL, Borefield.fromBoreholes]
  simp only [List.map_map, Function.comp_def, Borehole.new]
  have ho : (List.range f.nBoreholes).map (fun k : ℕ =>
      if tilted (f.tilt.getD k 0) then f.orientation.getD k 0 else 0) = f.orientation := by
    rw [← map_getD_range f.orientation _ hL.orientation]
    apply List.map_congr_left
    intro k hk
    have hk' : k < f.nBoreholes := List.mem_range.mp hk
    rw [map_getD_range f.orientation _ hL.orientation]
    split_ifs with ht
    · rfl
    · exact (hf.vertical k hk' ht).symm
  rw [map_getD_range _ _ hL.H, map_getD_range _ _ hL.D, map_getD_range _ _ hL.rb,
    map_getD_range _ _ hL.x, map_getD_range _ _ hL.y, map_getD_range _ _ hL.tilt, ho,
    new_arrays f.nBoreholes _ _ _ _ _ _ _ hL.H hL.D hL.rb hL.x hL.y hL.tilt hL.orientation,
    mask_self _ _ (by rw [hL.orientation, hL.tilt]) (fun k hk => hf.vertical k (by rw [hL.tilt] at hk; exact hk))]

/-- **C16** (round trip).  A list of boreholes converted to a borefield and back is
unchanged. -/
theorem boreholes_roundtrip (bs : List Borehole) (hb : ∀ b ∈ bs, WF b) :
    ∃ f, Borefield.fromBoreholes bs = some f ∧ f.WF ∧ f.nBoreholes = bs.length ∧
      f.toBoreholes = bs := by
  have h := new_arrays bs.length (bs.map (·.H)) (bs.map (·.D)) (bs.map (·.rb)) (bs.map (·.x))
    (bs.map (·.y)) (bs.map (·.tilt)) (bs.map (·.orientation)) (by simp) (by simp) (by simp)
    (by simp) (by simp) (by simp) (by simp)
  have hs := borefield_new_spec _ _ _ _ _ _ _ _ h
  refine ⟨_, h, hs.1, rfl, ?_⟩
  rw [hs.2.2]
  apply List.ext_getElem
  · simp
  · intro k h1 h2
    have e : ∀ g : Borehole → ℝ, valueAt (array (bs.map g)) k = g bs[k] := by
      intro g
      rcases bs with _ | ⟨v, _ | ⟨w, m⟩⟩
      · simp at h2
      · have : k = 0 := by simp at h2; omega
        subst this; rfl
      · show ((v :: w :: m).map g).getD k 0 = _
        rw [List.getD_eq_getElem _ _ (by simpa using h2)]
        simp only [List.getElem_map]
    simp only [List.getElem_map, List.getElem_range, e]
    exact new_self _ (hb _ (List.getElem_mem h2))

theorem toBoreholes_wf (f : Borefield) (hf : f.WF) : ∀ b ∈ f.toBoreholes, WF b := by
  rw [toBoreholes_eq f hf.toLengths]
  intro b hb
  obtain ⟨k, -, rfl⟩ := List.mem_map.mp hb
  exact new_WF _ _ _ _ _ _ _

theorem toBoreholes_length (f : Borefield) (hf : f.WF) : f.toBoreholes.length = f.nBoreholes := by
  rw [toBoreholes_eq f hf.toLengths]; simp

/-- **C16** (indexing).  Indexing a borefield with an integer is indexing its list of boreholes,
including negative indices and `IndexError`. -/
theorem borefield_getItem (f : Borefield) (hf : f.WF) (k : ℤ) :
    f.getItem k = pyGet f.toBoreholes k := by
  have hL := hf.toLengths
  have hlen := toBoreholes_length f hf
  have key : ∀ m : ℕ, f.getItem (m : ℤ) = f.toBoreholes[m]? := by
    intro m
    by_cases hm : m < f.nBoreholes
    · rw [getItem_nat f hL m hm, toBoreholes_eq f hL]
      simp [hm]
    · rw [List.getElem?_eq_none (by omega)]
      simp only [Borefield.getItem, pyGet_nat]
      rw [List.getElem?_eq_none (by rw [hL.H]; omega)]
      rfl
  by_cases h0 : 0 ≤ k
  · obtain ⟨m, rfl⟩ := Int.eq_ofNat_of_zero_le h0
    rw [key, pyGet_nat]
  · by_cases h1 : 0 ≤ (f.nBoreholes : ℤ) + k
    · obtain ⟨m, hm⟩ := Int.eq_ofNat_of_zero_le h1
      have hneg : ∀ {α : Type} (l : List α), l.length = f.nBoreholes → pyGet l k = pyGet l (m : ℤ) := by
        intro α l hl
        rw [pyGet_nat, pyGet, if_neg h0, hl, if_pos h1, hm, Int.toNat_natCast]
      rw [hneg _ hlen, pyGet_nat, ← key]
      simp only [Borefield.getItem, hneg _ hL.H, hneg _ hL.D, hneg _ hL.rb, hneg _ hL.x, hneg _ hL.y,
        hneg _ hL.tilt, hneg _ hL.orientation]
    · have hneg : ∀ {α : Type} (l : List α), l.length = f.nBoreholes → pyGet l k = none := by
        intro α l hl
        rw [pyGet, if_neg h0, hl, if_neg h1]
      rw [hneg _ hlen]
      simp only [Borefield.getItem, hneg _ hL.H]
      rfl

theorem pyGet_map {α β : Type} (g : α → β) (l : List α) (k : ℤ) :
    pyGet (l.map g) k = (pyGet l k).map g := by
  unfold pyGet
  simp only [List.length_map, List.getElem?_map]
  split_ifs <;> rfl

theorem pyGets_map {α β : Type} (g : α → β) (l : List α) (ks : List ℤ) :
    pyGets (l.map g) ks = (pyGets l ks).map (List.map g) := by
  unfold pyGets
  induction ks with
  | nil => rfl
  | cons k ks ih =>
    simp only [List.mapM_cons, pyGet_map, ih, Option.bind_eq_bind]
    cases pyGet l k with
    | none => rfl
    | some a =>
      simp only [Option.map_some, Option.bind_some]
      cases List.mapM (pyGet l) ks <;> rfl

theorem wf_arrays (f : Borefield) (hf : f.WF) :
    f.H = f.toBoreholes.map (·.H) ∧ f.D = f.toBoreholes.map (·.D) ∧ f.rb = f.toBoreholes.map (·.rb) ∧
    f.x = f.toBoreholes.map (·.x) ∧ f.y = f.toBoreholes.map (·.y) ∧
    f.tilt = f.toBoreholes.map (·.tilt) ∧ f.orientation = f.toBoreholes.map (·.orientation) := by
  have h := borefield_roundtrip f hf
  have h2 := new_arrays f.toBoreholes.length (f.toBoreholes.map (·.H)) (f.toBoreholes.map (·.D))
    (f.toBoreholes.map (·.rb)) (f.toBoreholes.map (·.x))
    (f.toBoreholes.map (·.y)) (f.toBoreholes.map (·.tilt)) (f.toBoreholes.map (·.orientation))
    (by simp) (by simp) (by simp) (by simp) (by simp) (by simp) (by simp)
  rw [Borefield.fromBoreholes, h2] at h
  simp only [Option.some.injEq] at h
  have ho : mask (f.toBoreholes.map (·.orientation)) (f.toBoreholes.map (·.tilt))
      = f.toBoreholes.map (·.orientation) := by
    apply mask_self _ _ (by simp)
    intro k hk hv
    rw [List.length_map] at hk
    rw [List.getD_eq_getElem _ _ (by simpa using hk), List.getElem_map] at hv ⊢
    exact toBoreholes_wf f hf _ (List.getElem_mem hk) hv
  rw [ho] at h
  have e := congrArg Borefield.H h
  have e1 := congrArg Borefield.D h
  have e2 := congrArg Borefield.rb h
  have e3 := congrArg Borefield.x h
  have e4 := congrArg Borefield.y h
  have e5 := congrArg Borefield.tilt h
  have e6 := congrArg Borefield.orientation h
  exact ⟨e.symm, e1.symm, e2.symm, e3.symm, e4.symm, e5.symm, e6.symm⟩

/-- **C16** (slices).  Indexing with a list of positions gives the borefield of the selected
boreholes; it fails exactly when the list view fails. -/
theorem borefield_getItems (f : Borefield) (hf : f.WF) (ks : List ℤ) :
    (pyGets f.toBoreholes ks = none → f.getItems ks = none) ∧
    (∀ bs, pyGets f.toBoreholes ks = some bs →
      ∃ g, f.getItems ks = some g ∧ g.WF ∧ g.toBoreholes = bs) := by
  obtain ⟨e1, e2, e3, e4, e5, e6, e7⟩ := wf_arrays f hf
  have hk : ∀ g : Borehole → ℝ, pyGets (f.toBoreholes.map g) ks = (pyGets f.toBoreholes ks).map (List.map g) :=
    fun g => pyGets_map g _ _
  constructor
  · intro h
    rw [Borefield.getItems, e1, hk, h]
    rfl
  · intro bs h
    have hmem : ∀ (ks : List ℤ) (bs : List Borehole), pyGets f.toBoreholes ks = some bs →
        ∀ b ∈ bs, b ∈ f.toBoreholes := by
      intro ks
      induction ks with
      | nil => intro bs h b hb; simp [pyGets] at h; subst h; simp at hb
      | cons k ks ih =>
        intro bs h b hb
        simp only [pyGets, List.mapM_cons, Option.bind_eq_bind] at h
        cases hk : pyGet f.toBoreholes k with
        | none => rw [hk] at h; simp at h
        | some c =>
          rw [hk] at h
          simp only [Option.bind_some] at h
          cases hks : List.mapM (pyGet f.toBoreholes) ks with
          | none => rw [hks] at h; simp at h
          | some cs =>
            rw [hks] at h
            simp only [Option.bind_some, Option.pure_def, Option.some.injEq] at h
            subst h
            rcases List.mem_cons.mp hb with rfl | hb
            · unfold pyGet at hk
              split_ifs at hk
              · exact List.mem_of_getElem? hk
              · exact List.mem_of_getElem? hk
            · exact ih cs hks b hb
    obtain ⟨g, h1, h2, -, h4⟩ := boreholes_roundtrip bs
      (fun b hb => toBoreholes_wf f hf b (hmem ks bs h b hb))
    refine ⟨g, ?_, h2, h4⟩
    rw [Borefield.getItems, e1, e2, e3, e4, e5, e6, e7]
    simp only [hk, h, Option.map_some, Option.bind_eq_bind, Option.bind_some]
    exact h1

/-- Specification: an operand made of consistent boreholes. -/
def Operand.WF : Operand → Prop
  | .borehole b => Bore.WF b
  | .list l => ∀ b ∈ l, Bore.WF b
  | .field f => f.WF

theorem operand_wf (o : Operand) (ho : o.WF) : ∀ b ∈ o.toList, Bore.WF b := by
  cases o with
  | borehole b => intro c hc; simp [Operand.toList] at hc; subst hc; exact ho
  | list l => exact ho
  | field f => exact toBoreholes_wf f ho

/-- **C16** (concatenation).  `field + other` and `other + field` are the concatenations of the
list views, whatever the kind of the other operand. -/
theorem borefield_add (f : Borefield) (hf : f.WF) (o : Operand) (ho : o.WF) :
    (∃ g, f.add o = some g ∧ g.WF ∧ g.toBoreholes = f.toBoreholes ++ o.toList) ∧
    (∃ g, f.radd o = some g ∧ g.WF ∧ g.toBoreholes = o.toList ++ f.toBoreholes) := by
  have h1 := toBoreholes_wf f hf
  have h2 := operand_wf o ho
  constructor
  · obtain ⟨g, a, b, -, c⟩ := boreholes_roundtrip (f.toBoreholes ++ o.toList)
      (fun b hb => (List.mem_append.mp hb).elim (h1 b) (h2 b))
    exact ⟨g, a, b, c⟩
  · obtain ⟨g, a, b, -, c⟩ := boreholes_roundtrip (o.toList ++ f.toBoreholes)
      (fun b hb => (List.mem_append.mp hb).elim (h2 b) (h1 b))
    exact ⟨g, a, b, c⟩

/-- **C16** (concatenation).  Adding anything to a single borehole gives the concatenation of the
list views. -/
theorem borehole_add (b : Borehole) (hb : WF b) (o : Operand) (ho : o.WF) :
    (∃ g, b.add o = some g ∧ g.WF ∧ g.toBoreholes = b :: o.toList) ∧
    (∃ g, b.radd o = some g ∧ g.WF ∧ g.toBoreholes = o.toList ++ [b]) := by
  have h2 := operand_wf o ho
  have k1 := boreholes_roundtrip (b :: o.toList) (fun c hc => by
    rcases List.mem_cons.mp hc with rfl | hc
    · exact hb
    · exact h2 c hc)
  have k2 := boreholes_roundtrip (o.toList ++ [b]) (fun c hc => by
    rcases List.mem_append.mp hc with hc | hc
    · exact h2 c hc
    · simp at hc; subst hc; exact hb)
  obtain ⟨g1, a1, b1, -, c1⟩ := k1
  obtain ⟨g2, a2, b2, -, c2⟩ := k2
  exact ⟨⟨g1, by cases o <;> exact a1, b1, c1⟩, ⟨g2, by cases o <;> exact a2, b2, c2⟩⟩

/-- **C16** (files).  Writing a consistent borefield to a file and reading it back gives the same
borefield. -/
theorem borefield_file_roundtrip (f : Borefield) (hf : f.WF) :
    Borefield.fromFile 7 f.toFile = some f := by
  have hL := hf.toLengths
  have hc : ∀ c, column f.toFile c = (List.range f.nBoreholes).map fun k : ℕ =>
      [f.x.getD k 0, f.y.getD k 0, f.H.getD k 0, f.D.getD k 0, f.rb.getD k 0, f.tilt.getD k 0,
      f.orientation.getD k 0].getD c 0 := by
    intro c; simp only [column, Borefield.toFile, List.map_map, Function.comp_def]
  unfold Borefield.fromFile
  rw [if_pos rfl, if_pos rfl]
  simp only [hc]
  simp only [List.getD_cons_zero, List.getD_cons_succ]
  rw [map_getD_range _ _ hL.H, map_getD_range _ _ hL.D, map_getD_range _ _ hL.rb,
    map_getD_range _ _ hL.x, map_getD_range _ _ hL.y, map_getD_range _ _ hL.tilt,
    map_getD_range _ _ hL.orientation,
    new_arrays f.nBoreholes _ _ _ _ _ _ _ hL.H hL.D hL.rb hL.x hL.y hL.tilt hL.orientation,
    mask_self _ _ (by rw [hL.orientation, hL.tilt]) (fun k hk => hf.vertical k (by rw [hL.tilt] at hk; exact hk))]

/-- **C16** (files).  `Borefield.from_file` and the function `field_from_file` read the same
boreholes from every rectangular file of at least five columns. -/
theorem field_from_file_agrees (cols : ℕ) (_h5 : 5 ≤ cols) (data : List (List ℝ))
    (hd : ∀ row ∈ data, row.length = cols) :
    ∃ f, Borefield.fromFile cols data = some f ∧ f.toBoreholes = fieldFromFile data := by
  obtain ⟨f, hf⟩ : ∃ f, Borefield.fromFile cols data = some f := by
    unfold Borefield.fromFile
    by_cases h7 : cols = 7
    · rw [if_pos h7, if_pos h7]
      exact ⟨_, new_arrays data.length _ _ _ _ _ _ _ (by simp [column]) (by simp [column])
        (by simp [column]) (by simp [column]) (by simp [column]) (by simp [column]) (by simp [column])⟩
    · rw [if_neg h7, if_neg h7]
      have hnt : ¬ tilted 0 := by simp [tilted]
      have hfo : fieldOrientation (scalar 0) (List.replicate data.length (decide (tilted 0))) data.length
          = some (List.replicate data.length 0) := by
        unfold fieldOrientation
        rw [if_pos (by simp [hnt])]
        rfl
      refine ⟨⟨data.length, column data 2, column data 3, column data 4, column data 0, column data 1,
        List.replicate data.length 0, List.replicate data.length 0⟩, ?_⟩
      have hcl : ∀ c, (column data c).length = data.length := by intro c; simp [column]
      unfold Borefield.new
      simp only [atleast1d, hcl, max_self, ArrayLike.map, broadcastTo, hfo,
        Option.bind_eq_bind, Option.bind_some, if_true]
  refine ⟨f, hf, ?_⟩
  have hs := borefield_new_spec _ _ _ _ _ _ _ _ hf
  rw [hs.2.2, hs.2.1]
  apply List.ext_getElem
  · simp [fieldFromFile, atleast1d, column]
  · intro k h1 h2
    have hk : k < data.length := by simpa [fieldFromFile] using h2
    have e : ∀ c, valueAt (array (column data c)) k = (data[k]).getD c 0 := by
      intro c
      rcases data with _ | ⟨v, _ | ⟨w, m⟩⟩
      · simp at hk
      · have : k = 0 := by simp at hk; omega
        subst this; rfl
      · show (column (v :: w :: m) c).getD k 0 = _
        rw [List.getD_eq_getElem _ _ (by simpa [column] using hk)]
        simp only [column, List.getElem_map]
    simp only [List.getElem_map, List.getElem_range, e, fieldFromFile, boreholeFromLine]
    rw [hd _ (List.getElem_mem hk)]
    by_cases h7 : cols = 7
    · simp only [if_pos h7, e]
    · simp only [if_neg h7, valueAt]

/-! ### Equality of borefields (C55) -/

theorem allclose_refl (l : List ℝ) : allclose l l := by
  intro p hp
  have hz : p.1 = p.2 := by
    induction l with
    | nil => simp at hp
    | cons a l ih =>
      rw [List.zip_cons_cons] at hp
      rcases List.mem_cons.mp hp with rfl | hp
      · rfl
      · exact ih hp
  rw [hz, sub_self, abs_zero]
  positivity

/-- **C55** (what holds).  Equality of borefields is reflexive. -/
theorem borefield_eq_refl_partial (f : Borefield) : f.eq f :=
  ⟨rfl, allclose_refl _, allclose_refl _, allclose_refl _, allclose_refl _, allclose_refl _,
    allclose_refl _, allclose_refl _⟩

/-- **C55** (what holds).  Borefields with identical list views are equal. -/
theorem borefield_eq_of_list_partial (f g : Borefield) (hf : f.WF) (hg : g.WF)
    (h : f.toBoreholes = g.toBoreholes) : f.eq g := by
  have h1 := borefield_roundtrip f hf
  have h2 := borefield_roundtrip g hg
  rw [h, h2] at h1
  simp only [Option.some.injEq] at h1
  rw [h1]
  exact borefield_eq_refl_partial f

theorem allclose_single (a b : ℝ) : allclose [a] [b] ↔ |a - b| ≤ 1 / 10 ^ 8 + 1 / 10 ^ 5 * |b| := by
  simp [allclose]

/-- **C55** (violated).  `==` is not symmetric: two single-borehole fields with lengths
`100` and `100.001000015`, built by the constructor, are equal in one order and not in the
other. -/
theorem borefield_eq_not_symmetric : ∃ f g : Borefield, f.WF ∧ g.WF ∧ f.eq g ∧ ¬ g.eq f := by
  obtain ⟨f, hf, wf, -, -⟩ := boreholes_roundtrip [Borehole.new 100 4 0.075 0 0 0 0]
    (by intro b hb; simp at hb; subst hb; exact new_WF _ _ _ _ _ _ _)
  obtain ⟨g, hg, wg, -, -⟩ := boreholes_roundtrip [Borehole.new 100.001000015 4 0.075 0 0 0 0]
    (by intro b hb; simp at hb; subst hb; exact new_WF _ _ _ _ _ _ _)
  have ef := hf
  have eg := hg
  rw [Borefield.fromBoreholes, new_arrays 1 _ _ _ _ _ _ _ rfl rfl rfl rfl rfl rfl rfl] at ef eg
  simp only [Option.some.injEq] at ef eg
  refine ⟨f, g, wf, wg, ?_, ?_⟩
  · rw [← ef, ← eg]
    refine ⟨rfl, ?_, allclose_refl _, allclose_refl _, allclose_refl _, allclose_refl _,
      allclose_refl _, allclose_refl _⟩
    show allclose [100] [100.001000015]
    rw [allclose_single, abs_of_nonpos (by norm_num), abs_of_nonneg (by norm_num)]
    norm_num
  · rw [← ef, ← eg]
    rintro ⟨-, h, -⟩
    change allclose [100.001000015] [100] at h
    rw [allclose_single, abs_of_nonneg (by norm_num), abs_of_nonneg (by norm_num)] at h
    norm_num at h

/-- Non-vacuity: a field mixing a vertical and a tilted borehole, with scalars broadcast. -/
example : ∃ f, Borefield.new (scalar 100) (scalar 4) (scalar 0.075) (array [0, 5]) (scalar 1)
    (array [0, 1]) (scalar 2) = some f ∧ f.orientation = [0, 2] ∧ f.y = [1, 1] := by
  have h0 : ¬ tilted 0 := by simp [tilted]
  have h1 : tilted 1 := by norm_num [tilted]
  refine ⟨⟨2, [100, 100], [4, 4], [0.075, 0.075], [0, 5], [1, 1], [0, 1], [0, 2]⟩, ?_, rfl, rfl⟩
  simp [Borefield.new, atleast1d, broadcastTo, ArrayLike.map, fieldOrientation, maskOrientation, h0, h1,
    List.replicate_succ, stretch]

end Verif.Bore
