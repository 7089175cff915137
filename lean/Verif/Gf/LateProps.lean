import Verif.Gf.LateModel
import Verif.Gf.UniformProps
import Verif.Gf.TempProps
import Verif.Gf.RefineProps
import Verif.Sol.SimUniform

/-!
# C165: g-functions evaluated after the boreholes were changed
-/

noncomputable section

namespace Verif.Gf

open Real MeasureTheory Bore FLS Sol

/-! ### `Detailed` -/

/-- Boreholes whose stored flag is that of their tilt, as when they are created. -/
def Fresh (l : List BoreObj) : Prop := ∀ o ∈ l, o.flag = decide (tilted o.b.tilt)

theorem fresh_vertical {l : List BoreObj} (h : Fresh l) : l.all BoreObj.isVertical = (l.map BoreObj.b).all vertical := by
  induction l with
  | nil => rfl
  | cons o l ih =>
    rw [List.map_cons, List.all_cons, List.all_cons, ih fun x hx => h x (List.mem_cons_of_mem _ hx)]
    congr 1
    show (!o.flag) = !decide (tilted o.b.tilt)
    rw [h o List.mem_cons_self]

/-- Assignments to attributes. -/
def Assigns (cs : List Change) : Prop := ∀ c ∈ cs, ∃ i e, c = .assign i e

theorem edit_flag (o : BoreObj) (e : Edit) : (o.edit e).flag = o.flag := by cases e <;> rfl

theorem assign_flags (l : List BoreObj) {cs : List Change} (h : Assigns cs) : (changes l cs).map BoreObj.flag = l.map BoreObj.flag := by
  induction cs generalizing l with
  | nil => rfl
  | cons c cs ih =>
    obtain ⟨i, e, rfl⟩ := h c List.mem_cons_self
    show (changes (change l (.assign i e)) cs).map BoreObj.flag = _
    rw [ih _ fun x hx => h x (List.mem_cons_of_mem _ hx)]
    show (l.modify i fun o => o.edit e).map BoreObj.flag = _
    apply List.ext_getElem?
    intro k
    rw [List.getElem?_map, List.getElem?_map, List.getElem?_modify]
    cases l[k]? with
    | none => simp
    | some o => by_cases hik : i = k <;> simp [hik, edit_flag]

theorem all_flags {l m : List BoreObj} (h : l.map BoreObj.flag = m.map BoreObj.flag) : l.all BoreObj.isVertical = m.all BoreObj.isVertical := by
  have e : ∀ l : List BoreObj, l.all BoreObj.isVertical = (l.map BoreObj.flag).all not := fun l => by
    rw [List.all_map]; rfl
  rw [e, e, h]

theorem not_sourceless {l now : List BoreObj} {ns : List ℕ} {rs : List (List ℝ)} (h : Consistent (l.map BoreObj.b) ns rs) (hpos : ∀ r ∈ rs, r ≠ []) (hn : now.length ≤ l.length) :
    (DetObj.new l ns rs).sourceless now = false := by
  unfold DetObj.sourceless
  rw [List.any_eq_false]
  intro i _
  have hlen := h.segs
  rw [List.length_map] at hlen
  by_cases hi : i + 1 < now.length
  · have h1 : i + 1 < ns.length := by omega
    obtain ⟨b, r, hb, hr, hr'⟩ := h.get (List.getElem?_eq_getElem h1)
    have h2 : 0 < ns[i + 1] := by rw [← hr']; exact List.length_pos_iff.mpr (hpos r (List.mem_of_getElem? hr))
    have h3 := i0_step ns (i + 1) _ (List.getElem?_eq_getElem h1)
    have h4 := i0_le_sum ns (i + 1 + 1)
    have h5 : ((DetObj.new l ns rs).segs.drop (i1 ns i)).length = ns.sum - i0 ns (i + 1) := by
      rw [List.length_drop, i1_eq]
      show (segmentList _ ns rs).length - _ = _
      rw [segmentList_length h]
    have h6 : (DetObj.new l ns rs).segs.drop (i1 (DetObj.new l ns rs).ns i) ≠ [] := fun hz => by
      rw [show (DetObj.new l ns rs).ns = ns from rfl] at hz
      rw [hz, List.length_nil] at h5
      omega
    simp [hi, h6]
  · simp [hi]

/-- The factors of a solver evaluated later are those of the field at construction, if only attributes were assigned. -/
theorem late_factors (K : Bool → Borehole → Borehole → ℝ) (empty : Bool) {l : List BoreObj} (hf : Fresh l) {ns : List ℕ} {rs : List (List ℝ)} (h : Consistent (l.map BoreObj.b) ns rs)
    (hpos : ∀ r ∈ rs, r ≠ []) {cs : List Change} (hc : Assigns cs) :
    (DetObj.new l ns rs).factors K empty (changes l cs) = detailed K (l.map BoreObj.b) ns rs := by
  have hl : (changes l cs).length = l.length := by
    have := congrArg List.length (assign_flags l hc)
    simpa using this
  have hv : (changes l cs).all BoreObj.isVertical = (l.map BoreObj.b).all vertical := by rw [all_flags (assign_flags l hc), fresh_vertical hf]
  unfold DetObj.factors detailed
  rw [not_sourceless h hpos hl.le]
  have e : (DetObj.new l ns rs).selfWrites K (changes l cs) = selfWrites K (l.map BoreObj.b) ns (segmentList (l.map BoreObj.b) ns rs) := by
    unfold DetObj.selfWrites selfWrites
    rw [hv, List.length_map]
    rfl
  rw [e, hl]
  dsimp only
  rw [List.length_map]
  rfl

/-- **C165** (attributes).  A solver `Detailed` evaluated after any assignments to attributes of the boreholes gives the g-functions of the boreholes as they were when it was
created, with the threshold of their radii. -/
theorem late_partial (K : ℝ → Bool → Borehole → Borehole → ℝ) (empty : Bool) {l : List BoreObj} (hf : Fresh l) {ns : List ℕ} {rs : List (List ℝ)}
    (h : Consistent (l.map BoreObj.b) ns rs) (hpos : ∀ r ∈ rs, r ≠ []) {cs : List Change} (hc : Assigns cs) (alpha : ℝ) (time : List ℝ) {thr : ℝ}
    (hthr : thr = ((l.map fun o => o.b.rb).foldl max 0) ^ 2 / (25 * alpha)) :
    (DetObj.new l ns rs).uniform K empty (changes l cs) alpha time = uniformDetailed K (l.map BoreObj.b) ns rs time thr ∧
    (DetObj.new l ns rs).temperature K empty (changes l cs) alpha time = temperatureDetailed K (l.map BoreObj.b) ns rs time thr := by
  have he : ∀ t, (DetObj.new l ns rs).factors (K t) empty (changes l cs) = detailed (K t) (l.map BoreObj.b) ns rs := fun t => late_factors (K t) empty hf h hpos hc
  subst hthr
  constructor
  · unfold DetObj.uniform uniformDetailed
    simp only [he]
    rfl
  · unfold DetObj.temperature temperatureDetailed responses segmentLengths
    simp only [he]
    rfl

/-- **C165** (list).  With any boreholes now in the list, not more than at construction: the interactions of pairs of boreholes are only evaluated while the first one is not
the last of the present list or later; the others are zero. -/
theorem late_entries (K : Bool → Borehole → Borehole → ℝ) (empty : Bool) {l now : List BoreObj} {ns : List ℕ} {rs : List (List ℝ)} (h : Consistent (l.map BoreObj.b) ns rs)
    (hpos : ∀ r ∈ rs, r ≠ []) (hn : now.length ≤ l.length) :
    ∃ M, (DetObj.new l ns rs).factors K empty now = some M ∧ ∀ k a sk m b sm, IsSegment (l.map BoreObj.b) rs k a sk → IsSegment (l.map BoreObj.b) rs m b sm →
      M (position rs k a) (position rs m b) =
        if k = m then K (now.all BoreObj.isVertical) sm sk
        else if now.length ≤ min k m + 1 then 0
        else if k < m then K (((l.map BoreObj.b).drop k).all vertical) sm sk
        else K (((l.map BoreObj.b).drop m).all vertical) sk sm * (sm.H / sk.H) := by
  obtain ⟨bs, hbs⟩ : ∃ bs, bs = l.map BoreObj.b := ⟨_, rfl⟩
  have hlb : bs.length = l.length := by rw [hbs, List.length_map]
  rw [← hbs] at h ⊢
  obtain ⟨segs, hsegs⟩ : ∃ segs, segs = segmentList bs ns rs := ⟨_, rfl⟩
  have hlen : segs.length = ns.sum := by rw [hsegs, segmentList_length h]
  have hflag : ∀ k, (segs.drop (i0 ns k)).all vertical = (bs.drop k).all vertical := fun k => by
    obtain ⟨e, hc⟩ := segmentList_drop h k
    rw [hsegs, e, all_vertical hc fun r hr => hpos r (List.mem_of_mem_drop hr)]
  have hs1 : (DetObj.new l ns rs).segs = segs := by rw [hsegs, hbs]; rfl
  have hs2 : (DetObj.new l ns rs).ns = ns := rfl
  have hs3 : (DetObj.new l ns rs).n0 = bs.length := hlb.symm
  obtain ⟨ws, hws⟩ : ∃ ws, (DetObj.new l ns rs).selfWrites K now = some ws := by
    unfold DetObj.selfWrites
    rw [hs1, hs2, hs3]
    refine mapM_isSome fun x hx => ?_
    obtain ⟨k, hk, h1, h2⟩ := (mem_selfIndices h.segs x.1 x.2).mp hx
    have hle : i1 ns k ≤ ns.sum := i0_le_sum ns _
    rw [List.getElem?_eq_getElem (show x.1 < segs.length by omega), List.getElem?_eq_getElem (show x.2 < segs.length by omega)]
    exact ⟨_, rfl⟩
  have hself : ∀ w, w ∈ ws ↔ ∃ k < bs.length, ∃ i j a b, (i0 ns k ≤ i ∧ i < i1 ns k) ∧ (i0 ns k ≤ j ∧ j < i1 ns k) ∧ segs[i]? = some a ∧ segs[j]? = some b ∧
      w = ⟨j, i, K (now.all BoreObj.isVertical) a b⟩ := fun w => by
    have hws' := hws
    unfold DetObj.selfWrites at hws'
    rw [hs1, hs2, hs3] at hws'
    rw [mem_of_mapM hws' w]
    constructor
    · rintro ⟨x, hx, hw⟩
      obtain ⟨k, hk, h1, h2⟩ := (mem_selfIndices h.segs x.1 x.2).mp hx
      split at hw
      · rename_i a b ha hb
        exact ⟨k, hk, x.1, x.2, a, b, h1, h2, ha, hb, (Option.some.inj hw).symm⟩
      · simp at hw
    · rintro ⟨k, hk, i, j, a, b, h1, h2, ha, hb, rfl⟩
      refine ⟨(i, j), (mem_selfIndices h.segs i j).mpr ⟨k, hk, h1, h2⟩, ?_⟩
      dsimp only
      rw [ha, hb]
  refine ⟨_, by unfold DetObj.factors; rw [hws, not_sourceless (by rw [← hbs]; exact h) hpos hn, hs1, hs2, hs3]; rfl, ?_⟩
  intro k a sk m b sm hsk hsm
  obtain ⟨g1, g2, g3, g4, g5⟩ := hsk.spec h
  obtain ⟨f1, f2, f3, f4, f5⟩ := hsm.spec h
  rw [position_eq h, position_eq h]
  rw [← hsegs] at g1 f1
  obtain ⟨r, hr⟩ : ∃ r, r = i0 ns k + a := ⟨_, rfl⟩
  obtain ⟨c, hc⟩ : ∃ c, c = i0 ns m + b := ⟨_, rfl⟩
  rw [← hr] at g1 g2 g3 ⊢
  rw [← hc] at f1 f2 f3 ⊢
  refine fill_spec _ _ r c _ ?_ ?_
  · intro w hw hwr hwc
    rcases List.mem_append.mp hw with hw | hw
    · obtain ⟨q, hq, i, j, x, y, h1, h2, hx, hy, rfl⟩ := (hself w).mp hw
      dsimp only at hwr hwc ⊢
      subst hwr hwc
      have e1 := block_unique ns g2 g3 h2.1 h2.2
      have e2 := block_unique ns f2 f3 h1.1 h1.2
      rw [if_pos (e1.trans e2.symm)]
      rw [g1] at hy
      rw [f1] at hx
      rw [Option.some.inj hx, Option.some.inj hy]
    · obtain ⟨i, hi, hw⟩ := List.mem_flatMap.mp hw
      obtain ⟨hnow, p, q, s, t, h1, h2, h3, hs, ht, hw⟩ := (mem_blockWrites w).mp hw
      rw [hflag i] at hw
      rcases hw with rfl | rfl
      · dsimp only at hwr hwc ⊢
        subst hwr hwc
        have e1 := block_unique ns g2 g3 h1 h2
        subst e1
        have hkm : k < m := by
          by_contra hn
          have : i0 ns (m + 1) ≤ i0 ns (k + 1) := i0_mono ns (by omega)
          rw [i1_eq] at f3 h3; omega
        rw [if_neg (by omega), if_neg (by omega), if_pos hkm]
        rw [g1] at ht
        rw [f1] at hs
        rw [Option.some.inj hs, Option.some.inj ht]
      · dsimp only at hwr hwc ⊢
        subst hwr hwc
        have e1 := block_unique ns f2 f3 h1 h2
        subst e1
        have hkm : m < k := by
          by_contra hn
          have : i0 ns (k + 1) ≤ i0 ns (m + 1) := i0_mono ns (by omega)
          rw [i1_eq] at g3 h3; omega
        rw [if_neg (by omega), if_neg (by omega), if_neg (by omega)]
        rw [f1] at ht
        rw [g1] at hs
        rw [Option.some.inj hs, Option.some.inj ht]
  · by_cases hz : k ≠ m ∧ now.length ≤ min k m + 1
    · right; rw [if_neg hz.1, if_pos hz.2]
    left
    rcases Nat.lt_trichotomy k m with hkm | hkm | hkm
    · have hle : i1 ns k ≤ i0 ns m := i0_mono ns hkm
      exact ⟨_, List.mem_append_right _ (List.mem_flatMap.mpr ⟨k, List.mem_range.mpr g4, (mem_blockWrites _).mpr ⟨by omega, r, c, sm, sk, g2, g3, by omega, f1, g1, .inl rfl⟩⟩), rfl, rfl⟩
    · subst hkm
      exact ⟨_, List.mem_append_left _ ((hself _).mpr ⟨k, g4, c, r, sm, sk, ⟨f2, f3⟩, ⟨g2, g3⟩, f1, g1, rfl⟩), rfl, rfl⟩
    · have hle : i1 ns m ≤ i0 ns k := i0_mono ns hkm
      exact ⟨_, List.mem_append_right _ (List.mem_flatMap.mpr ⟨m, List.mem_range.mpr f4, (mem_blockWrites _).mpr ⟨by omega, c, r, sk, sm, f2, f3, by omega, g1, f1, .inr rfl⟩⟩), rfl, rfl⟩

theorem segment_depth {rb : ℝ} {bs : List Borehole} {ns : List ℕ} {rs : List (List ℝ)} (hU : Upright rb bs) (h : Splits bs ns rs) {s : Borehole} (hs : s ∈ segmentList bs ns rs) :
    0 ≤ s.D := by
  unfold segmentList at hs
  obtain ⟨x, hx, hsx⟩ := List.mem_flatMap.mp hs
  have hb := (List.of_mem_zip hx).1
  have hr := (List.of_mem_zip (List.of_mem_zip hx).2).2
  have key : ∀ (r : List ℝ) (a : ℝ), 0 ≤ a → (∀ ρ ∈ r, 0 < ρ) → s ∈ segsFrom x.1 a r → 0 ≤ s.D := by
    intro r
    induction r with
    | nil => intro _ _ _ h; simp [segsFrom] at h
    | cons ρ r ih =>
      intro a h0 hp hm
      have hρ := hp ρ List.mem_cons_self
      rcases List.mem_cons.mp hm with rfl | hm
      · show 0 ≤ x.1.D + a * x.1.H * Real.cos x.1.tilt
        rw [hU.tilt x.1 hb, Real.cos_zero, mul_one]
        have := hU.D x.1 hb
        have := hU.H x.1 hb
        positivity
      · exact ih (a + ρ) (by linarith) (fun y hy => hp y (List.mem_cons_of_mem _ hy)) hm
  rw [segments_eq] at hsx
  exact key _ 0 le_rfl (h.pos _ hr) hsx

/-- **C165** (removed boreholes).  When boreholes were removed from the list after the construction of a solver `Detailed` with at least two vertical boreholes, the evaluation
returns without an error, and every value with a uniform heat extraction rate is lower than that of the boreholes at construction. -/
theorem late_removed {alpha : ℝ} (ha : 0 < alpha) {K : ℝ → Bool → Borehole → Borehole → ℝ} (hK : ∀ t s r, K t true s r = fls t alpha (pairOf s r) true true) (empty : Bool) {rb : ℝ}
    {l now : List BoreObj} {ns : List ℕ} {rs : List (List ℝ)} (hU : Upright rb (l.map BoreObj.b)) (h : Splits (l.map BoreObj.b) ns rs) (h2 : 2 ≤ l.length)
    (hnow : now.length < l.length) (hv : ∀ o ∈ now, o.flag = false) {time : List ℝ} (hs : time.Pairwise (· ≤ ·)) {thr : ℝ} (hthr : thr = ((l.map fun o => o.b.rb).foldl max 0) ^ 2 / (25 * alpha))
    (hthr0 : 0 < thr) :
    ∃ g g', uniformDetailed K (l.map BoreObj.b) ns rs time thr = some g ∧ (DetObj.new l ns rs).uniform K empty now alpha time = some g' ∧ g'.length = g.length ∧
      ∀ (k : ℕ) (t v v' : ℝ), time[k]? = some t → 0 < t → g[k]? = some v → g'[k]? = some v' → v' < v := by
  obtain ⟨bs, hbs⟩ : ∃ bs, bs = l.map BoreObj.b := ⟨_, rfl⟩
  have hlb : bs.length = l.length := by rw [hbs, List.length_map]
  have hd := detailed_value hK hU h
  have hle := fun t => late_entries (K t) empty h.consistent h.ne hnow.le
  choose M hM hMe using hle
  have hflag : now.all BoreObj.isVertical = true := by
    rw [List.all_eq_true]
    intro o ho
    simp [BoreObj.isVertical, hv o ho]
  have hall : ∀ k, ((l.map BoreObj.b).drop k).all vertical = true := fun k => by
    rw [List.all_eq_true]
    intro b hb
    have := hU.tilt b (List.mem_of_mem_drop hb)
    simp [vertical, this, tilted]
  obtain ⟨segs, hsegs⟩ : ∃ segs, segs = segmentList (l.map BoreObj.b) ns rs := ⟨_, rfl⟩
  obtain ⟨F, hF⟩ : ∃ F : Fin segs.length → Fin segs.length → ℝ → ℝ, F = fun (i j : Fin segs.length) t => ((detailed (K t) (l.map BoreObj.b) ns rs).getD fun _ _ => 0) i j := ⟨_, rfl⟩
  obtain ⟨F', hF'⟩ : ∃ F' : Fin segs.length → Fin segs.length → ℝ → ℝ, F' = fun (i j : Fin segs.length) t => M t i j := ⟨_, rfl⟩
  have hval : ∀ i j t, F i j t = fls t alpha (pairOf segs[j] segs[i]) true true := by
    subst hsegs hF
    exact fun i j t => (hd t).2 i j
  have hup : ∀ s ∈ segs, s.tilt = 0 ∧ s.rb = rb ∧ 0 < s.H := fun s hs' => segment_upright hU h (by rw [← hsegs]; exact hs')
  have hdep : ∀ s ∈ segs, 0 ≤ s.D := fun s hs' => segment_depth hU h (by rw [← hsegs]; exact hs')
  have hFpos : ∀ i j t, 0 < t → 0 < F i j t := fun i j t ht => by
    rw [hval]
    have g1 := hup segs[j] (List.getElem_mem _)
    have g2 := hup segs[i] (List.getElem_mem _)
    refine ((positive_increasing ha (g := pairOf segs[j] segs[i]) ⟨distance_pos (by rw [g1.2.1]; exact hU.rb_pos) _, g1.2.2.le, g2.2.2⟩ g1.2.2 ht (lt_add_one t)).2.2.2
      (hdep _ (List.getElem_mem _)) (hdep _ (List.getElem_mem _))).1
  have hcases : ∀ i j : Fin segs.length, ∃ k m, (∃ a sk, (i : ℕ) = position rs k a ∧ IsSegment (l.map BoreObj.b) rs k a sk) ∧ (∃ b sm, (j : ℕ) = position rs m b ∧ IsSegment (l.map BoreObj.b) rs m b sm) ∧
      ∀ t, F' i j t = if k ≠ m ∧ now.length ≤ min k m + 1 then 0 else F i j t := by
    intro i j
    subst hsegs
    obtain ⟨k, a, sk, e1, hk, g1⟩ := positions_cover h.consistent i.isLt
    obtain ⟨m, b, sm, e2, hm, g2⟩ := positions_cover h.consistent j.isLt
    refine ⟨k, m, ⟨a, sk, e1, hk⟩, ⟨b, sm, e2, hm⟩, fun t => ?_⟩
    obtain ⟨M0, hM0, he0⟩ := detailed_entries (K t) h.consistent h.ne
    rw [hF, hF']
    dsimp only
    rw [hM0, Option.getD_some, e1, e2, hMe t _ _ _ _ _ _ hk hm, he0 _ _ _ _ _ _ hk hm, hflag, hall k, hall m, show (l.map BoreObj.b).all vertical = true from hall 0]
    by_cases hkm : k = m
    · simp [hkm]
    · by_cases hz : now.length ≤ min k m + 1
      · simp [hkm, hz]
      · simp [hkm, hz]
  have hFle : ∀ i j t, 0 < t → F' i j t ≤ F i j t := fun i j t ht => by
    obtain ⟨k, m, -, -, e⟩ := hcases i j
    rw [e t]
    split
    · exact (hFpos i j t ht).le
    · exact le_rfl
  have hstrict : ∃ i j : Fin segs.length, ∀ t, F' i j t = 0 := by
    have hn1 : l.length - 2 < rs.length ∧ l.length - 1 < rs.length := by
      have e1 := h.consistent.segs
      have e2 := congrArg List.length h.consistent.ratios
      rw [List.length_map] at e1 e2
      omega
    have hpick : ∀ k, k < l.length → ∃ (i : Fin segs.length), ∃ sk, (i : ℕ) = position rs k 0 ∧ IsSegment (l.map BoreObj.b) rs k 0 sk := by
      intro k hk
      have e1 := h.consistent.segs
      have e2 := congrArg List.length h.consistent.ratios
      rw [List.length_map] at e1 e2
      have hkr : k < rs.length := by omega
      have hkb : k < (l.map BoreObj.b).length := by rw [List.length_map]; exact hk
      have hne := h.ne rs[k] (List.getElem_mem _)
      have hl0 : 0 < ((l.map BoreObj.b)[k].segments rs[k]).length := by rw [segments_length]; exact List.length_pos_iff.mpr hne
      have hseg : IsSegment (l.map BoreObj.b) rs k 0 ((l.map BoreObj.b)[k].segments rs[k])[0] :=
        ⟨_, _, List.getElem?_eq_getElem hkb, List.getElem?_eq_getElem hkr, List.getElem?_eq_getElem hl0⟩
      obtain ⟨s1, -, -, -, -⟩ := hseg.spec h.consistent
      rw [← hsegs, ← position_eq h.consistent] at s1
      exact ⟨⟨position rs k 0, (List.getElem?_eq_some_iff.mp s1).1⟩, _, rfl, hseg⟩
    obtain ⟨i, sk, e1, hk⟩ := hpick (l.length - 2) (by omega)
    obtain ⟨j, sm, e2, hm⟩ := hpick (l.length - 1) (by omega)
    refine ⟨i, j, fun t => ?_⟩
    rw [hF']
    dsimp only
    rw [e1, e2, hMe t _ _ _ _ _ _ hk hm, if_neg (by omega), if_pos (by omega)]
  obtain ⟨i0', j0', hz⟩ := hstrict
  have hHtot : 0 < ∑ i : Fin segs.length, segs[i].H := Finset.sum_pos (fun i _ => (hup _ (List.getElem_mem _)).2.2) ⟨i0', Finset.mem_univ _⟩
  have hmean : ∀ t, 0 < t → (∑ i : Fin segs.length, segs[i].H * ∑ j, F' i j t) / (∑ i : Fin segs.length, segs[i].H) <
      (∑ i : Fin segs.length, segs[i].H * ∑ j, F i j t) / (∑ i : Fin segs.length, segs[i].H) := fun t ht => by
    refine div_lt_div_of_pos_right (Finset.sum_lt_sum (fun i _ => ?_) ⟨i0', Finset.mem_univ _, ?_⟩) hHtot
    · exact mul_le_mul_of_nonneg_left (Finset.sum_le_sum fun j _ => hFle i j t ht) (hup _ (List.getElem_mem _)).2.2.le
    · refine mul_lt_mul_of_pos_left (Finset.sum_lt_sum (fun j _ => hFle i0' j t ht) ⟨j0', Finset.mem_univ _, ?_⟩) (hup _ (List.getElem_mem _)).2.2
      rw [hz t]
      exact hFpos _ _ _ ht
  have hu := uhtr_average (fun i : Fin segs.length => segs[i].H) (resp := fun tl i j => tl.map (F i j)) (F := F) (fun _ _ _ => rfl) hs thr
  have hu' := uhtr_average (fun i : Fin segs.length => segs[i].H) (resp := fun tl i j => tl.map (F' i j)) (F := F') (fun _ _ _ => rfl) hs thr
  refine ⟨uhtr (fun i : Fin segs.length => segs[i].H) (fun tl i j => tl.map (F i j)) time thr, uhtr (fun i : Fin segs.length => segs[i].H) (fun tl i j => tl.map (F' i j)) time thr, ?_, ?_,
    by rw [hu.1, hu'.1], ?_⟩
  · unfold uniformDetailed
    dsimp only
    rw [if_pos fun t _ => (hd t).1]
    subst hsegs hF
    rfl
  · unfold DetObj.uniform
    have et : (DetObj.new l ns rs).threshold alpha = thr := by rw [hthr]; rfl
    rw [et, if_pos fun t _ => by rw [hM t]; rfl]
    simp only [hM, Option.getD_some]
    subst hsegs hF'
    rfl
  · intro k t v v' ht ht0 e1 e2
    rw [hu.2 k t ht] at e1
    rw [hu'.2 k t ht] at e2
    rw [← Option.some.inj e1, ← Option.some.inj e2]
    split
    · exact div_lt_div_of_pos_right (mul_lt_mul_of_pos_right (hmean thr hthr0) ht0) hthr0
    · exact hmean t ht0

/-! ### `Similarities` -/

/-- The same field with boreholes at other positions. -/
structure Moved (S S1 : Sim) : Prop where
  ns : S1.ns = S.ns
  rs : S1.rs = S.rs
  tol : S1.tol = S.tol
  H : ∀ k, (S1.bore k).H = (S.bore k).H
  D : ∀ k, (S1.bore k).D = (S.bore k).D
  rb : ∀ k, (S1.bore k).rb = (S.bore k).rb
  tilt : ∀ k, (S1.bore k).tilt = (S.bore k).tilt

theorem Moved.seg {S S1 : Sim} (h : Moved S S1) (k a : ℕ) : (S1.seg k a).H = (S.seg k a).H ∧ (S1.seg k a).D = (S.seg k a).D := by
  unfold Sim.seg
  rw [h.rs, segments_eq, segments_eq]
  have key : ∀ (r : List ℝ) (x : ℝ) (a : ℕ), ((segsFrom (S1.bore k) x r).getD a (S1.bore k)).H = ((segsFrom (S.bore k) x r).getD a (S.bore k)).H ∧
      ((segsFrom (S1.bore k) x r).getD a (S1.bore k)).D = ((segsFrom (S.bore k) x r).getD a (S.bore k)).D := by
    intro r
    induction r with
    | nil => intro x a; simp [segsFrom, h.H, h.D]
    | cons ρ r ih =>
      intro x a
      cases a with
      | zero => simp [segsFrom, Borehole.segmentAt, Borehole.new, h.H, h.D, h.tilt]
      | succ a => simpa [segsFrom] using ih (x + ρ) a
  exact key _ _ _

theorem Moved.cmp {S S1 : Sim} (h : Moved S S1) (i j : ℕ) (p u : ℕ × ℕ) :
    cmpVertical S1.tol (S1.seg i p.1, S1.seg j p.2) (S1.seg i u.1, S1.seg j u.2) ↔ cmpVertical S.tol (S.seg i p.1, S.seg j p.2) (S.seg i u.1, S.seg j u.2) := by
  unfold cmpVertical cmpReal cmpImage condH
  simp only [(h.seg _ _).1, (h.seg _ _).2, h.tol]

open Classical in
theorem Moved.axial {S S1 : Sim} (h : Moved S S1) (i j : ℕ) : S1.mapAxial (cmpVertical S1.tol) i j = S.mapAxial (cmpVertical S.tol) i j := by
  unfold Sim.mapAxial
  have e : S1.axialStep (cmpVertical S1.tol) i j = S.axialStep (cmpVertical S.tol) i j := by
    funext st p
    have ed : st.1.findIdx? (fun u => decide (cmpVertical S1.tol (S1.seg i p.1, S1.seg j p.2) (S1.seg i u.1, S1.seg j u.2))) =
        st.1.findIdx? fun u => decide (cmpVertical S.tol (S.seg i p.1, S.seg j p.2) (S.seg i u.1, S.seg j u.2)) := by
      congr 1
      funext u
      exact decide_eq_decide.mpr (h.cmp i j p u)
    unfold Sim.axialStep
    rw [ed]
  have e2 : S1.segPairs i j = S.segPairs i j := by unfold Sim.segPairs; rw [h.ns]
  rw [e, e2]

theorem Moved.first {S S1 : Sim} (h : Moved S S1) : S1.first = S.first := by
  funext k
  unfold Sim.first
  rw [h.ns]

theorem Moved.indices {S S1 : Sim} (h : Moved S S1) (gs : List (List ℕ)) : ∀ k0, S1.selfIndicesV k0 gs = S.selfIndicesV k0 gs := by
  have e2 : ∀ i j, S1.segPairs i j = S.segPairs i j := fun i j => by unfold Sim.segPairs; rw [h.ns]
  induction gs with
  | nil => intro k0; rfl
  | cons g gs ih =>
    intro k0
    simp only [Sim.selfIndicesV, h.axial, h.first, e2, ih]

/-- **C165** (similarities, positions).  A solver `Similarities` evaluated after boreholes were moved gives the factors of the boreholes where they were at construction. -/
theorem late_moved (K : FLS.Pair → ℝ) {S S1 : Sim} (h : Moved S S1) (dist : List (ℕ × ℕ) → List ℝ × (ℕ → ℕ)) : lateFactors K S S1 dist = S.factors K dist := by
  have e2 : ∀ i j, S1.segPairs i j = S.segPairs i j := fun i j => by unfold Sim.segPairs; rw [h.ns]
  have g1 : ∀ gs, S1.selfWritesV K gs = S.selfWritesV K gs := fun gs => by
    have : S1.selfGeometries gs = S.selfGeometries gs := by
      unfold Sim.selfGeometries
      simp only [h.axial, h.rb, (h.seg _ _).1, (h.seg _ _).2]
    unfold Sim.selfWritesV
    rw [this, h.indices]
  have g2 : ∀ g ds idx, S1.groupWrites K g ds idx = S.groupWrites K g ds idx := fun g ds idx => by
    have e3 : S1.groupEntries g ds idx = S.groupEntries g ds idx := by
      have e4 : S1.geometry = S.geometry := by
        funext mn d u
        unfold Sim.geometry
        simp only [(h.seg _ _).1, (h.seg _ _).2]
      unfold Sim.groupEntries
      simp only [h.axial, h.first, e2, e4]
    have e5 : S1.plainReverse = S.plainReverse := by
      funext mn
      unfold Sim.plainReverse Sim.uniformAt cmpBoreholes
      simp only [h.H, h.D, h.rb, h.tilt, h.ns, h.rs, h.tol]
    unfold Sim.groupWrites
    rw [e3, e5]
  unfold lateFactors Sim.factors
  simp only [g1, g2]
  rfl

/-- **C165** (similarities, positions).  The g-function with a uniform heat extraction rate as well. -/
theorem late_moved_uniform (K : ℝ → FLS.Pair → ℝ) {S S1 : Sim} (h : Moved S S1) (dist : List (ℕ × ℕ) → List ℝ × (ℕ → ℕ)) (time : List ℝ) (thr : ℝ) :
    lateSimilarities K S S1 dist time thr = uniformSimilarities K S dist time thr := by
  unfold lateSimilarities uniformSimilarities
  simp only [late_moved _ h]

/-- **C165** (similarities, one borehole).  With one borehole, `Similarities` follows all changes of its dimensions in the response factors. -/
theorem late_single (K : FLS.Pair → ℝ) {S S1 : Sim} (h0 : S.N = 1) (h1 : S1.N = 1) (dist : List (ℕ × ℕ) → List ℝ × (ℕ → ℕ)) : lateFactors K S S1 dist = S1.factors K dist := by
  unfold lateFactors Sim.factors Sim.groups
  rw [h0, h1]
  rfl

/-- The response decreases with the distance. -/
theorem decreasing_strict {alpha : ℝ} (ha : 0 < alpha) {g : Pair} (hg : g.Ok) (h1 : 0 < g.H1) (hD : 0 ≤ g.D1 ∧ 0 ≤ g.D2) {t : ℝ} (ht : 0 < t) {d e : ℝ} (hd : 0 < d) (hde : d < e) :
    fls t alpha (g.at e) true true < fls t alpha (g.at d) true true := by
  have he := hd.trans hde
  have hl := lower_pos ha ht
  have i1 := fun (a : ℝ) (h : 0 ≤ a) => integrand_integrableOn (at_ok hg he) true true h
  have i2 := fun (a : ℝ) (h : 0 ≤ a) => integrand_integrableOn (at_ok hg hd) true true h
  have hp : 0 < quad (fun s => integrand (g.at d) true true s - integrand (g.at e) true true s) (lower alpha t) none :=
    tail_pos (fun a h => (i2 a h).sub (i1 a h)) (fun s hs => by
      have hpos := all_pos (at_ok hg hd) h1 hD.1 hD.2 hs
      rw [integrand_at g true true d] at hpos
      show 0 < integrand (g.at d) true true s - integrand (g.at e) true true s
      rw [integrand_at g true true e, integrand_at g true true d, sub_pos]
      refine mul_lt_mul_of_pos_right (exp_lt_exp.mpr ?_) (pos_of_mul_pos_right hpos (exp_pos _).le)
      have h3 : d ^ 2 < e ^ 2 := by nlinarith
      nlinarith [mul_lt_mul_of_pos_right h3 (pow_pos hs 2)]) hl.le
  have e3 : quad (fun s => integrand (g.at d) true true s - integrand (g.at e) true true s) (lower alpha t) none =
      quad (integrand (g.at d) true true) (lower alpha t) none - quad (integrand (g.at e) true true) (lower alpha t) none := by
    unfold quad
    exact integral_sub (i2 _ hl.le) (i1 _ hl.le)
  rw [e3] at hp
  unfold fls
  show 0.5 / g.H2 * _ < 0.5 / g.H2 * _
  have hc : 0 < 0.5 / g.H2 := by have := hg.H2; positivity
  exact mul_lt_mul_of_pos_left (by linarith) hc

/-- One vertical borehole in one segment. -/
def oneSim (b : Borehole) : Sim := ⟨1, fun _ => b, fun _ => 1, fun _ => [1], 1 / 10 ^ 6, 1 / 100⟩

theorem one_seg (H D rb : ℝ) : (oneSim ⟨H, D, rb, 0, 0, 0, 0⟩).seg 0 0 = ⟨H, D, rb, 0, 0, 0, 0⟩ := by
  simp [Sim.seg, oneSim, segments_eq, segsFrom, Borehole.segmentAt, Borehole.new]

theorem one_factors (K : FLS.Pair → ℝ) (H D rb : ℝ) (dist : List (ℕ × ℕ) → List ℝ × (ℕ → ℕ)) :
    ∃ M, (oneSim ⟨H, D, rb, 0, 0, 0, 0⟩).factors K dist = some M ∧ M 0 0 = K ⟨rb, H, D, H, D⟩ := by
  have hs := one_seg H D rb
  obtain ⟨S, hS⟩ : ∃ S, S = oneSim ⟨H, D, rb, 0, 0, 0, 0⟩ := ⟨_, rfl⟩
  have hm : S.mapAxial (cmpVertical S.tol) 0 0 = ([(0, 0)], [0]) := by rw [hS]; rfl
  have hg : S.groups = ⟨[[0]], [], [], []⟩ := by rw [hS]; rfl
  have hsp : S.segPairs 0 0 = [(0, 0)] := by rw [hS]; rfl
  have hf : S.first 0 = 0 := rfl
  have hr : (S.bore 0).rb = rb := by rw [hS]; rfl
  rw [← hS] at hs ⊢
  have hw : S.selfWritesV K [[0]] = some [⟨0, 0, K ⟨rb, H, D, H, D⟩⟩] := by
    simp [Sim.selfWritesV, Sim.selfIndicesV, Sim.selfGeometries, hm, hsp, hf, hs, hr]
  refine ⟨fill [⟨0, 0, K ⟨rb, H, D, H, D⟩⟩] fun _ _ => 0, ?_, ?_⟩
  · unfold Sim.factors
    rw [hg]
    simp [hw]
  · simp [fill]

/-- **C165** (negation).  The radius of one borehole is increased after the construction: `Detailed` still returns the g-function with the former radius, `Similarities` returns a
lower value. -/
theorem late_solvers_differ {alpha H D rb rb' t : ℝ} (ha : 0 < alpha) (hH : 0 < H) (hD : 0 ≤ D) (hr : 0 < rb) (hrr : rb < rb') (ht : rb ^ 2 / (25 * alpha) < t) (empty : Bool)
    (dist : List (ℕ × ℕ) → List ℝ × (ℕ → ℕ)) {l : List BoreObj} (hl : l = [BoreObj.new H D rb 0 0 0 0]) :
    (∀ o ∈ changes l [.assign 0 (.rb rb')], o.b = ⟨H, D, rb', 0, 0, 0, 0⟩) ∧
    ∃ v w, (DetObj.new l [1] [[1]]).uniform (fun t _ s r => fls t alpha (pairOf s r) true true) empty (changes l [.assign 0 (.rb rb')]) alpha [t] = some [v] ∧
      lateSimilarities (fun t g => fls t alpha g true true) (oneSim ⟨H, D, rb, 0, 0, 0, 0⟩) (oneSim ⟨H, D, rb', 0, 0, 0, 0⟩) dist [t] (rb ^ 2 / (25 * alpha)) = some [w] ∧
      v = fls t alpha ⟨rb, H, D, H, D⟩ true true ∧ w = fls t alpha ⟨rb', H, D, H, D⟩ true true ∧ w < v := by
  have hb : l.map BoreObj.b = [⟨H, D, rb, 0, 0, 0, 0⟩] := by
    subst hl
    simp [BoreObj.new, Borehole.new]
  have ht0 : 0 < t := lt_of_le_of_lt (by positivity) ht
  refine ⟨?_, fls t alpha ⟨rb, H, D, H, D⟩ true true, fls t alpha ⟨rb', H, D, H, D⟩ true true, ?_, ?_, rfl, rfl, ?_⟩
  · subst hl
    intro o ho
    have : o = (BoreObj.new H D rb 0 0 0 0).edit (.rb rb') := by simpa [changes, change] using ho
    subst this
    simp [BoreObj.edit, BoreObj.new, Borehole.new]
  · have hU : Upright rb (l.map BoreObj.b) := by
      rw [hb]
      exact ⟨by simp, by simp, hr, by simp, by simpa using hH, by simpa using hD⟩
    have hS : Splits (l.map BoreObj.b) [1] [[1]] := by
      rw [hb]
      refine ⟨⟨?_, ?_⟩, ?_, ?_⟩ <;> simp
    have hF : Fresh l := by
      subst hl
      intro o ho
      rw [List.mem_singleton.mp ho]
      rfl
    have hthr : rb ^ 2 / (25 * alpha) = ((l.map fun o => o.b.rb).foldl max 0) ^ 2 / (25 * alpha) := by
      subst hl
      simp [BoreObj.new, Borehole.new, max_eq_right hr.le]
    rw [(late_partial (fun t _ s r => fls t alpha (pairOf s r) true true) empty hF hS.consistent hS.ne (cs := [.assign 0 (.rb rb')])
      (fun c hc => ⟨0, .rb rb', List.mem_singleton.mp hc⟩) alpha [t] hthr).1]
    obtain ⟨g, h1, h2, h3⟩ := uniform_field (alpha := alpha) (K := fun t _ s r => fls t alpha (pairOf s r) true true) (fun _ _ _ => rfl) hU hS (time := [t]) (by simp) (rb ^ 2 / (25 * alpha))
    rw [h1]
    have h4 := h3 0 t rfl
    rw [if_neg (not_le.mpr ht), hb] at h4
    have h5 : g = [fieldResponse alpha [⟨H, D, rb, 0, 0, 0, 0⟩] t] := by
      match g, h2, h4 with
      | [x], _, h4 => simpa using h4
    rw [h5]
    have h6 : fieldResponse alpha [⟨H, D, rb, 0, 0, 0, 0⟩] t = fls t alpha ⟨rb, H, D, H, D⟩ true true := by
      simp [fieldResponse, meanResponse, totalResponse, mul_div_cancel_left₀ _ hH.ne', pairOf, Borehole.distance, hr.le]
    rw [h6]
  · unfold lateSimilarities
    have hls : ∀ t, lateFactors (fun g => fls t alpha g true true) (oneSim ⟨H, D, rb, 0, 0, 0, 0⟩) (oneSim ⟨H, D, rb', 0, 0, 0, 0⟩) dist =
        (oneSim ⟨H, D, rb', 0, 0, 0, 0⟩).factors (fun g => fls t alpha g true true) dist := fun t => late_single _ rfl rfl dist
    simp only [hls]
    choose M hM hM0 using fun t => one_factors (fun g => fls t alpha g true true) H D rb' dist
    have hlen : lengths (oneSim ⟨H, D, rb, 0, 0, 0, 0⟩) = [H] := by
      show [((oneSim ⟨H, D, rb, 0, 0, 0, 0⟩).seg 0 0).H] = [H]
      rw [one_seg]
    unfold uniformOf
    rw [if_pos fun t _ => by dsimp only; rw [hM t]; rfl, hlen]
    have hp : pLong [t] (rb ^ 2 / (25 * alpha)) = 0 := by simp [pLong, not_le.mpr ht]
    simp only [hM, Option.getD_some]
    unfold uhtr linearize timeLong
    rw [hp]
    simp [uhtrG, uhtrT, hM0, mul_div_cancel_right₀ _ hH.ne']
  · exact decreasing_strict ha (g := ⟨rb, H, D, H, D⟩) ⟨hr, hH.le, hH⟩ hH ⟨hD, hD⟩ ht0 hr hrr

/-! ### Examples -/

/-- The two boreholes of `fieldA` as objects. -/
def listA : List BoreObj := fieldA.map fun b => BoreObj.new b.H b.D b.rb b.x b.y b.tilt b.orientation

theorem listA_b : listA.map BoreObj.b = fieldA := by
  simp [listA, fieldA, BoreObj.new, Borehole.new]

theorem listA_fresh : Fresh listA := by
  intro o ho
  obtain ⟨b, -, rfl⟩ := List.mem_map.mp ho
  rfl

/-- Both boreholes are made longer and one is moved before the evaluation. -/
example (empty : Bool) : (DetObj.new listA [2, 1] [[1 / 4, 3 / 4], [1]]).uniform lineKernel empty (changes listA [.assign 0 (.H 300), .assign 1 (.H 50), .assign 1 (.x 20)]) (1 / 10 ^ 6) [10 ^ 7] =
    uniformDetailed lineKernel fieldA [2, 1] [[1 / 4, 3 / 4], [1]] [10 ^ 7] (((listA.map fun o => o.b.rb).foldl max 0) ^ 2 / (25 * (1 / 10 ^ 6))) := by
  have h := fieldA_splits
  rw [← listA_b] at h ⊢
  exact (late_partial lineKernel empty listA_fresh h.consistent h.ne (by
    intro c hc
    rcases List.mem_cons.mp hc with rfl | hc
    · exact ⟨_, _, rfl⟩
    rcases List.mem_cons.mp hc with rfl | hc
    · exact ⟨_, _, rfl⟩
    rw [List.mem_singleton.mp hc]
    exact ⟨_, _, rfl⟩) _ _ rfl).1

/-- `boreholes.pop()` before the evaluation. -/
example (empty : Bool) : ∃ g g', uniformDetailed lineKernel fieldA [2, 1] [[1 / 4, 3 / 4], [1]] [10 ^ 7] 400 = some g ∧
    (DetObj.new listA [2, 1] [[1 / 4, 3 / 4], [1]]).uniform lineKernel empty (changes listA [.pop]) (1 / 10 ^ 6) [10 ^ 7] = some g' ∧ g'.length = g.length ∧
    ∀ (k : ℕ) (t v v' : ℝ), [(10 : ℝ) ^ 7][k]? = some t → 0 < t → g[k]? = some v → g'[k]? = some v' → v' < v := by
  have h := fieldA_splits
  have hU := fieldA_upright
  rw [← listA_b] at h hU ⊢
  refine late_removed (by norm_num) (fun _ _ _ => rfl) empty hU h (by simp [listA, fieldA]) (by simp [changes, change, listA, fieldA]) ?_ (by simp) ?_ (by norm_num)
  · intro o ho
    have ho' : o ∈ listA := List.dropLast_subset _ ho
    rw [listA_fresh o ho']
    have : o.b ∈ listA.map BoreObj.b := List.mem_map_of_mem ho'
    rw [listA_b] at this
    simp [fieldA_upright.tilt _ this, tilted]
  · simp [listA, fieldA, BoreObj.new, Borehole.new]
    norm_num

/-- The factors of the two segments of a borehole, and of a removed pair. -/
example (K : Bool → Borehole → Borehole → ℝ) : ∃ M, (DetObj.new listA [2, 1] [[1 / 4, 3 / 4], [1]]).factors K false (changes listA [.pop]) = some M ∧ M 0 2 = 0 := by
  have h := fieldA_splits
  rw [← listA_b] at h
  obtain ⟨M, hM, he⟩ := late_entries K false (l := listA) (now := changes listA [.pop]) h.consistent h.ne (by simp [changes, change, listA, fieldA])
  refine ⟨M, hM, ?_⟩
  have := he 0 0 _ 1 0 _ ⟨_, _, by rw [listA_b]; rfl, rfl, rfl⟩ ⟨_, _, by rw [listA_b]; rfl, rfl, rfl⟩
  rw [if_neg (by omega), if_pos (by simp [changes, change, listA, fieldA])] at this
  simpa [position] using this

/-- Boreholes whose attribute `x` is assigned. -/
theorem moved_x (S : Sim) (f : ℕ → ℝ) : Moved S { S with bore := fun k => { S.bore k with x := f k } } :=
  ⟨rfl, rfl, rfl, fun _ => rfl, fun _ => rfl, fun _ => rfl, fun _ => rfl⟩

/-- A row of three boreholes, moved to other distances. -/
example (K : ℝ → FLS.Pair → ℝ) (dist : List (ℕ × ℕ) → List ℝ × (ℕ → ℕ)) (time : List ℝ) (thr : ℝ) :
    lateSimilarities K Sim.row3 { Sim.row3 with bore := fun k => { Sim.row3.bore k with x := 20 * k } } dist time thr = uniformSimilarities K Sim.row3 dist time thr :=
  late_moved_uniform K (moved_x Sim.row3 fun k => 20 * k) dist time thr

example (dist : List (ℕ × ℕ) → List ℝ × (ℕ → ℕ)) : ∃ v w, (DetObj.new [BoreObj.new 100 4 0.075 0 0 0 0] [1] [[1]]).uniform (fun t _ s r => fls t (1 / 10 ^ 6) (pairOf s r) true true) false
      (changes [BoreObj.new 100 4 0.075 0 0 0 0] [.assign 0 (.rb 0.15)]) (1 / 10 ^ 6) [3600] = some [v] ∧
    lateSimilarities (fun t g => fls t (1 / 10 ^ 6) g true true) (oneSim ⟨100, 4, 0.075, 0, 0, 0, 0⟩) (oneSim ⟨100, 4, 0.15, 0, 0, 0, 0⟩) dist [3600] (0.075 ^ 2 / (25 * (1 / 10 ^ 6))) = some [w] ∧ w < v := by
  obtain ⟨-, v, w, h1, h2, -, -, h3⟩ := late_solvers_differ (alpha := 1 / 10 ^ 6) (H := 100) (D := 4) (rb := 0.075) (rb' := 0.15) (t := 3600) (by norm_num) (by norm_num) (by norm_num) (by norm_num)
    (by norm_num) (by norm_num) false dist rfl
  exact ⟨v, w, h1, h2, h3⟩

end Verif.Gf
