import Verif.FLS.ListModel
import Verif.FLS.InclProps
import Verif.FLS.TimeProps
import Verif.FLS.LogProps
import Verif.FLS.ApproxProps

/-!
# C110: evaluating lists of boreholes at once and pair by pair
-/

noncomputable section

namespace Verif.FLS

open Real MeasureTheory Bore Filter

/-- The value for receiver `i` and source `j` in the result. -/
def Res.entry : Res → ℕ → ℕ → Option Vals
  | .pair v, 0, 0 => some v
  | .pair _, _, _ => none
  | .table t, i, j => (t[i]?).bind fun r => r[j]?

/-- The shape `(M, N)` of a table. -/
def Res.IsTable (r : Res) (m n : ℕ) : Prop := ∃ t : List (List Vals), r = .table t ∧ t.length = m ∧ ∀ l ∈ t, l.length = n

/-- All boreholes are vertical, or all sources are inclined, or all receivers are inclined. -/
def Unmixed (l1 l2 : List Borehole) : Prop :=
  (∀ b ∈ l1 ++ l2, isVertical b = true) ∨ (∀ b ∈ l1, isVertical b = false) ∨ (∀ b ∈ l2, isVertical b = false)

theorem listPair_eq (b1 b2 : Borehole) : listPair b1 b2 = pairOf b1 b2 := by
  unfold listPair pairOf Borehole.distance
  rw [max_comm]
  congr 4 <;> ring

theorem mapM_entries {α β : Type} {f : α → Option β} : ∀ {l : List α} {r : List β}, l.mapM f = some r → r.length = l.length ∧ ∀ (i : ℕ) (a : α), l[i]? = some a → r[i]? = f a
  | [], r, h => by simp at h; subst h; simp
  | a :: l, r, h => by
    rw [List.mapM_cons] at h
    cases hf : f a with
    | none => rw [hf] at h; exact absurd h (by simp)
    | some b =>
      cases hl : l.mapM f with
      | none => rw [hf, hl] at h; exact absurd h (by simp)
      | some r' =>
        rw [hf, hl] at h
        simp at h
        subst h
        obtain ⟨h1, h2⟩ := mapM_entries hl
        refine ⟨by simp [h1], fun i x hx => ?_⟩
        cases i with
        | zero => simp at hx; subst hx; simpa using hf.symm
        | succ i => simpa using h2 i x (by simpa using hx)

theorem mapM_total {α β : Type} {f : α → Option β} : ∀ {l : List α}, (∀ a ∈ l, (f a).isSome) → (l.mapM f).isSome
  | [], _ => by simp
  | a :: l, h => by
    obtain ⟨b, hb⟩ := Option.isSome_iff_exists.mp (h a List.mem_cons_self)
    obtain ⟨r, hr⟩ := Option.isSome_iff_exists.mp (mapM_total fun x hx => h x (List.mem_cons_of_mem _ hx))
    rw [List.mapM_cons, hb, hr]
    rfl

theorem table_entries {l1 l2 : List Borehole} {f : Borehole → Borehole → Option Vals} {r : Res} (h : table l1 l2 f = some r) :
    r.IsTable l2.length l1.length ∧ ∀ i j b2 b1, l2[i]? = some b2 → l1[j]? = some b1 → r.entry i j = f b1 b2 := by
  unfold table at h
  cases ht : (l2.mapM fun b2 => l1.mapM fun b1 => f b1 b2) with
  | none => rw [ht] at h; exact absurd h (by simp)
  | some t =>
    rw [ht] at h
    simp at h
    subst h
    obtain ⟨h1, h2⟩ := mapM_entries ht
    refine ⟨⟨t, rfl, h1, fun row hrow => ?_⟩, fun i j b2 b1 hi hj => ?_⟩
    · obtain ⟨i, hi⟩ := List.mem_iff_getElem?.mp hrow
      have hlt : i < l2.length := by rw [← h1]; exact (List.getElem?_eq_some_iff.mp hi).1
      have := h2 i l2[i] (List.getElem?_eq_getElem hlt)
      rw [hi] at this
      exact (mapM_entries this.symm).1
    · have h3 := h2 i b2 hi
      cases hr : (l1.mapM fun b1 => f b1 b2) with
      | none =>
        rw [hr] at h3
        have := (List.getElem?_eq_some_iff.mp hi).1
        rw [List.getElem?_eq_none_iff] at h3
        omega
      | some row =>
        rw [hr] at h3
        show (t[i]?).bind _ = _
        rw [h3]
        exact (mapM_entries hr).2 j b1 hj

/-- The function used for all pairs of two lists. -/
def usedFor (o : FlsOpts) (time : When) (l1 l2 : List Borehole) (b1 b2 : Borehole) : Option Vals :=
  if l1.all isVertical && l2.all isVertical then flsVertical o (listPair b1 b2) time else flsInclined o b1 b2 time

theorem flsLists_eq (o : FlsOpts) (time : When) (l1 l2 : List Borehole) : flsLists o time l1 l2 = table l1 l2 (usedFor o time l1 l2) := by
  unfold flsLists usedFor
  split <;> rfl

theorem used_unmixed {l1 l2 : List Borehole} (h : Unmixed l1 l2) (o : FlsOpts) (time : When) {b1 b2 : Borehole} (h1 : b1 ∈ l1) (h2 : b2 ∈ l2) :
    flsPair o time b1 b2 = (usedFor o time l1 l2 b1 b2).map .pair := by
  unfold flsPair usedFor
  rw [listPair_eq]
  rcases h with h | h | h
  · have e1 : l1.all isVertical = true := List.all_eq_true.mpr fun b hb => h b (List.mem_append_left _ hb)
    have e2 : l2.all isVertical = true := List.all_eq_true.mpr fun b hb => h b (List.mem_append_right _ hb)
    rw [h b1 (List.mem_append_left _ h1), h b2 (List.mem_append_right _ h2), e1, e2]
  · have e1 : l1.all isVertical = false := List.all_eq_false.mpr ⟨b1, h1, by rw [h b1 h1]; simp⟩
    rw [h b1 h1, e1]; simp
  · have e1 : l2.all isVertical = false := List.all_eq_false.mpr ⟨b2, h2, by rw [h b2 h2]; simp⟩
    rw [h b2 h2, e1]; simp

/-- **C110**, partial.  For two lists of boreholes (or a borehole and a list) that are all vertical, or of which all sources or all receivers are inclined: if the call
returns, it returns a table with one line for each receiver and one column for each source, every element of which is the value returned for the two boreholes alone.
Missing: lists in which two vertical boreholes meet and another one is inclined, for which this fails (`lists_fail`). -/
theorem lists_pairwise_partial (o : FlsOpts) (time : When) (w1 w2 : Who) (hw : ∀ b1 b2, ¬ (w1 = .one b1 ∧ w2 = .one b2)) (h : Unmixed w1.toList w2.toList) {r : Res}
    (hr : finiteLineSource o time w1 w2 = some r) :
    r.IsTable w2.toList.length w1.toList.length ∧
      ∀ i j b2 b1, w2.toList[i]? = some b2 → w1.toList[j]? = some b1 → ∃ v, r.entry i j = some v ∧ finiteLineSource o time (.one b1) (.one b2) = some (.pair v) := by
  have e : finiteLineSource o time w1 w2 = flsLists o time w1.toList w2.toList := by
    cases w1 <;> cases w2 <;> first | rfl | exact absurd ⟨rfl, rfl⟩ (hw _ _)
  rw [e, flsLists_eq] at hr
  obtain ⟨h1, h2⟩ := table_entries hr
  refine ⟨h1, fun i j b2 b1 hi hj => ?_⟩
  have h3 := h2 i j b2 b1 hi hj
  have hv : ∃ v, usedFor o time w1.toList w2.toList b1 b2 = some v := by
    obtain ⟨t, rfl, ht, hrow⟩ := h1
    have hi' := (List.getElem?_eq_some_iff.mp hi).1
    have hj' := (List.getElem?_eq_some_iff.mp hj).1
    rw [← ht] at hi'
    have hjl : j < (t[i]).length := by rw [hrow _ (List.getElem_mem hi')]; exact hj'
    rw [← h3]
    refine ⟨t[i][j], ?_⟩
    show (t[i]?).bind _ = _
    rw [List.getElem?_eq_getElem hi']
    exact List.getElem?_eq_getElem hjl
  obtain ⟨v, hv⟩ := hv
  refine ⟨v, by rw [h3, hv], ?_⟩
  show flsPair o time b1 b2 = _
  rw [used_unmixed h o time (List.mem_iff_getElem?.mpr ⟨j, hj⟩) (List.mem_iff_getElem?.mpr ⟨i, hi⟩), hv]
  rfl

/-- **C110**: the call returns, for every pair of arguments, when the approximation is not used or its coefficients exist. -/
theorem lists_return (o : FlsOpts) (time : When) (w1 w2 : Who) (h : o.approximation = true → (erfCoeffs o.N).isSome) : (finiteLineSource o time w1 w2).isSome := by
  have hv : ∀ g, (flsVertical o g time).isSome := by
    intro g
    unfold flsVertical
    cases time <;> (try rfl) <;> (cases ha : o.approximation <;> simp [approx, h, ha])
  have hi : ∀ b1 b2, (flsInclined o b1 b2 time).isSome := by
    intro b1 b2
    unfold flsInclined
    cases time <;> (try rfl) <;> (cases ha : o.approximation <;> simp [Incl.approx, h, ha])
  have hl : ∀ l1 l2, (flsLists o time l1 l2).isSome := by
    intro l1 l2
    rw [flsLists_eq]
    unfold table
    rw [Option.isSome_map]
    refine mapM_total fun b2 _ => mapM_total fun b1 _ => ?_
    unfold usedFor
    split
    · exact hv _
    · exact hi _ _
  cases w1 <;> cases w2
  · show (flsPair _ _ _ _).isSome
    unfold flsPair
    rw [Option.isSome_map]
    split
    · exact hv _
    · exact hi _ _
  all_goals exact hl _ _

/-! ### Lists with vertical and inclined boreholes -/

/-- Mean over the receiver of the temperature of a point source at the depth `w` below ground, minus that of its image. -/
def pointOver (alpha t d D2 H2 w : ℝ) : ℝ :=
  meanOver D2 H2 (fun z => pointSource alpha t √(d ^ 2 + (z - w) ^ 2)) - meanOver D2 H2 (fun z => pointSource alpha t √(d ^ 2 + (z + w) ^ 2))

theorem pointSource_continuous (t alpha : ℝ) {d : ℝ} (hd : 0 < d) {x : ℝ × ℝ → ℝ} (hx : Continuous x) :
    Continuous fun p : ℝ × ℝ => pointSource alpha t √(d ^ 2 + x p ^ 2) := by
  unfold pointSource
  simp only [erfc_eq]
  have h1 : Continuous fun p : ℝ × ℝ => √(d ^ 2 + x p ^ 2) := by fun_prop
  exact (continuous_const.sub (erf_continuous.comp (h1.div_const _))).div h1 fun p => (sqrt_pos.mpr (by positivity)).ne'

theorem over_continuous (t alpha : ℝ) {d : ℝ} (hd : 0 < d) (c D2 H2 : ℝ) :
    Continuous fun w => ∫ z in D2..D2 + H2, pointSource alpha t √(d ^ 2 + (z + c * w) ^ 2) :=
  intervalIntegral.continuous_parametric_intervalIntegral_of_continuous' (pointSource_continuous t alpha hd (x := fun p => p.2 + c * p.1) (by fun_prop)) _ _

/-- The value for two vertical boreholes alone: half the integral of `pointOver` along the source. -/
theorem vertical_along (t alpha : ℝ) {b1 b2 : Borehole} (hr : 0 < b1.rb) (h1 : 0 < b1.H) (h2 : 0 < b2.H) :
    fls t alpha (pairOf b1 b2) true true = b1.H / 2 * ∫ u in (0 : ℝ)..1, pointOver alpha t (b1.distance b2) b2.D b2.H (b1.D + u * b1.H) := by
  have hd : 0 < b1.distance b2 := lt_max_of_lt_left hr
  have hrec := reciprocity t alpha (pairOf b1 b2) h1.ne' h2.ne' true true
  have hok : (pairOf b1 b2).swap.Ok := ⟨hd, h2.le, h1⟩
  rw [(line_of_points t alpha hok).2.2] at hrec
  obtain ⟨d, hdd⟩ : ∃ d, d = b1.distance b2 := ⟨_, rfl⟩
  simp only [pairOf, Pair.swap] at hrec ⊢
  rw [← hdd] at hrec hd ⊢
  have him : ∀ z, imageAt alpha t d b2.D b2.H z = ∫ w in b2.D..b2.D + b2.H, pointSource alpha t √(d ^ 2 + (w + z) ^ 2) := fun z => by
    have := intervalIntegral.integral_comp_neg (a := b2.D) (b := b2.D + b2.H) (fun w => pointSource alpha t √(d ^ 2 + (z - w) ^ 2))
    simp only [sub_neg_eq_add, neg_add'] at this
    unfold imageAt
    rw [← this]
    simp only [add_comm z]
  have hli : ∀ z, lineAt alpha t d b2.D b2.H z = ∫ w in b2.D..b2.D + b2.H, pointSource alpha t √(d ^ 2 + (w - z) ^ 2) := fun z => by
    unfold lineAt
    congr 1
    funext w
    rw [show (z - w) ^ 2 = (w - z) ^ 2 by ring]
  have c1 : Continuous fun w => ∫ z in b2.D..b2.D + b2.H, pointSource alpha t √(d ^ 2 + (z - w) ^ 2) := by
    simpa [sub_eq_add_neg] using over_continuous t alpha hd (-1) b2.D b2.H
  have c2 : Continuous fun w => ∫ z in b2.D..b2.D + b2.H, pointSource alpha t √(d ^ 2 + (z + w) ^ 2) := by
    simpa using over_continuous t alpha hd 1 b2.D b2.H
  have key : ∫ w in b1.D..b1.D + b1.H, pointOver alpha t d b2.D b2.H w = b1.H * ∫ u in (0 : ℝ)..1, pointOver alpha t d b2.D b2.H (b1.D + u * b1.H) := by
    have := intervalIntegral.smul_integral_comp_mul_add (a := 0) (b := 1) (pointOver alpha t d b2.D b2.H) b1.H b1.D
    rw [mul_zero, zero_add, mul_one, add_comm b1.H, smul_eq_mul] at this
    rw [← this]
    congr 2
    funext u
    rw [add_comm, mul_comm]
  rw [div_mul_eq_mul_div, ← key]
  unfold pointOver meanOver
  rw [intervalIntegral.integral_sub ((c1.div_const _).intervalIntegrable _ _) ((c2.div_const _).intervalIntegrable _ _),
    intervalIntegral.integral_div, intervalIntegral.integral_div]
  unfold meanOver at hrec
  simp only [him, hli] at hrec
  field_simp at hrec ⊢
  linarith

/-- The value for two vertical boreholes in a list with inclined boreholes: the same function summed over the nodes. -/
theorem inclined_along (t alpha : ℝ) {b1 b2 : Borehole} (hr : 0 < b1.rb) (h2 : 0 < b2.H) (hD1 : 0 < b1.D) (hD2 : 0 ≤ b2.D) (ht1 : b1.tilt = 0)
    (ht2 : b2.tilt = 0) {nodes : List (ℝ × ℝ)} (h1 : 0 < b1.H) (hn : ∀ n ∈ nodes, 0 ≤ n.1) :
    Incl.fls t alpha b1 b2 nodes true true = b1.H / 2 * (nodes.map fun n => n.2 * pointOver alpha t (b1.distance b2) b2.D b2.H (b1.D + n.1 * b1.H)).sum := by
  have hdis : b1.distance b2 ^ 2 = (b1.x - b2.x) ^ 2 + (b1.y - b2.y) ^ 2 + Incl.gap b1 b2 := by
    have := Incl.rr_eq b1 b2
    unfold Incl.rr Incl.dx Incl.dy at this
    rw [← this]
    unfold Borehole.distance
    rw [max_comm]
    rcases le_total √((b1.x - b2.x) ^ 2 + (b1.y - b2.y) ^ 2) b1.rb with h | h
    · rw [max_eq_right h, max_eq_right ((sqrt_le_left hr.le).mp h)]
    · rw [max_eq_left h, max_eq_left ((le_sqrt' hr).mp h), sq_sqrt (by positivity)]
  have hrea : ∀ u v, Incl.dist2 b1 b2 u v + Incl.gap b1 b2 = b1.distance b2 ^ 2 + (b2.D + v - (b1.D + u * b1.H)) ^ 2 := fun u v => by
    rw [hdis]
    unfold Incl.dist2 Incl.px Incl.py Incl.pz
    rw [ht1, ht2, sin_zero, cos_zero]
    ring
  have himg : ∀ u v, Incl.dist2img b1 b2 u v + Incl.gap b1 b2 = b1.distance b2 ^ 2 + (b2.D + v + (b1.D + u * b1.H)) ^ 2 := fun u v => by
    rw [hdis]
    unfold Incl.dist2img Incl.px Incl.py Incl.pz
    rw [ht1, ht2, sin_zero, cos_zero]
    ring
  have hd : 0 < b1.distance b2 := lt_max_of_lt_left hr
  have ha : Incl.Apart b1 b2 nodes := by
    refine ⟨h2, fun n _ v _ => by rw [hrea]; positivity, fun n hm v hv => ?_⟩
    have h3 := hn n hm
    have : 0 < b2.D + v + (b1.D + n.1 * b1.H) := by have := hv.1; nlinarith
    unfold Incl.dist2img Incl.px Incl.py Incl.pz
    rw [ht1, ht2, sin_zero, cos_zero]
    have h4 : 0 < (b2.D + v + (b1.D + n.1 * b1.H)) ^ 2 := by positivity
    nlinarith [sq_nonneg (b1.x - b2.x), sq_nonneg (b1.y - b2.y)]
  rw [(Incl.inclined_points t alpha ha).2.2]
  unfold Incl.nodesMean
  simp only [hrea, himg]
  have hsub : ∀ (F : ℝ → ℝ), ∫ v in (0 : ℝ)..b2.H, F (b2.D + v) = ∫ z in b2.D..b2.D + b2.H, F z := fun F => by
    rw [intervalIntegral.integral_comp_add_left, add_zero]
  rw [show ∀ a b : ℝ, (a - b) / 2 = 1 / 2 * (a - b) from fun a b => by ring, show ∀ c : ℝ, b1.H / 2 * c = 1 / 2 * (b1.H * c) from fun c => by ring]
  congr 1
  clear hn ha
  induction nodes with
  | nil => simp
  | cons n l ih =>
    simp only [List.map_cons, List.sum_cons]
    rw [mul_add, ← ih]
    unfold pointOver meanOver
    rw [hsub fun z => pointSource alpha t √(b1.distance b2 ^ 2 + (z - (b1.D + n.1 * b1.H)) ^ 2),
      hsub fun z => pointSource alpha t √(b1.distance b2 ^ 2 + (z + (b1.D + n.1 * b1.H)) ^ 2)]
    ring

theorem erf_strictMono : StrictMono erf := by
  refine strictMono_of_deriv_pos fun x => ?_
  rw [(hasDerivAt_erf x).deriv]
  positivity

theorem erfint_sub_le {x y : ℝ} (h : x ≤ y) : |erfint y - erfint x| ≤ y - x := by
  have := Convex.norm_image_sub_le_of_norm_deriv_le (f := erfint) (C := 1) (s := Set.univ) (fun z _ => (hasDerivAt_erfint z).differentiableAt)
    (fun z _ => by rw [(hasDerivAt_erfint z).deriv]; exact abs_erf_le z) convex_univ (Set.mem_univ x) (Set.mem_univ y)
  rwa [norm_eq_abs, norm_eq_abs, abs_of_nonneg (sub_nonneg.mpr h), one_mul] at this

/-- The integrand for two vertical boreholes is at most that of a receiver along an infinite source. -/
theorem integrand_le {g : Pair} (hg : g.Ok) (h1 : 0 < g.H1) {s : ℝ} (hs : 0 < s) : integrand g true true s ≤ exp (-g.dis ^ 2 * s ^ 2) * (2 * g.H2 / s) := by
  have h3 : integrand g true true s ≤ integrand g true false s := by
    rw [integrand_all]
    linarith [img_neg hg h1 hs]
  refine h3.trans ?_
  have e : integrand g true false s = exp (-g.dis ^ 2 * s ^ 2) * (s ^ (-2 : ℤ) * ((erfint ((g.D2 - g.D1 + g.H2) * s) - erfint ((g.D2 - g.D1) * s))
      - (erfint ((g.D2 - g.D1 + g.H2 - g.H1) * s) - erfint ((g.D2 - g.D1 - g.H1) * s)))) := by
    simp [integrand, inner4, Pair.qRea]
    ring
  rw [e]
  refine mul_le_mul_of_nonneg_left ?_ (exp_pos _).le
  have a1 := (abs_le.mp (erfint_sub_le (x := (g.D2 - g.D1) * s) (y := (g.D2 - g.D1 + g.H2) * s) (by nlinarith [hg.H2]))).2
  have a2 := (abs_le.mp (erfint_sub_le (x := (g.D2 - g.D1 - g.H1) * s) (y := (g.D2 - g.D1 + g.H2 - g.H1) * s) (by nlinarith [hg.H2]))).1
  have e2 : s ^ (-2 : ℤ) = 1 / s ^ 2 := by rw [zpow_neg]; norm_cast; rw [one_div]
  rw [e2, div_mul_eq_mul_div, div_le_div_iff₀ (by positivity) hs, one_mul]
  have h2 : (erfint ((g.D2 - g.D1 + g.H2) * s) - erfint ((g.D2 - g.D1) * s)) - (erfint ((g.D2 - g.D1 + g.H2 - g.H1) * s) - erfint ((g.D2 - g.D1 - g.H1) * s)) ≤ 2 * g.H2 * s := by
    nlinarith
  nlinarith

/-- One node for vertical boreholes. -/
theorem node_rea_vertical {b1 b2 : Borehole} (ht1 : b1.tilt = 0) (ht2 : b2.tilt = 0) (u s : ℝ) :
    Incl.node (Incl.rr b1 b2) (Incl.dzRea b1 b2) (Incl.kRea0 b1 b2) (Incl.kRea1 b1 b2) (Incl.kRea2 b1 b2) b1.H b2.H u s
      = exp (-Incl.rr b1 b2 * s ^ 2) * (erf ((u * b1.H + b1.D - b2.D) * s) - erf ((u * b1.H + b1.D - b2.D - b2.H) * s)) := by
  unfold Incl.node Incl.kRea0 Incl.kRea1 Incl.kRea2 Incl.dzRea
  rw [ht1, ht2, sin_zero, cos_zero]
  congr 2 <;> ring_nf

theorem node_img_vertical {b1 b2 : Borehole} (ht1 : b1.tilt = 0) (ht2 : b2.tilt = 0) (u s : ℝ) :
    Incl.node (Incl.rr b1 b2) (Incl.dzImg b1 b2) (Incl.kImg0 b1 b2) (Incl.kImg1 b1 b2) (Incl.kImg2 b1 b2) b1.H b2.H u s
      = exp (-Incl.rr b1 b2 * s ^ 2) * (erf ((u * b1.H + b1.D + b2.D + b2.H) * s) - erf ((u * b1.H + b1.D + b2.D) * s)) := by
  unfold Incl.node Incl.kImg0 Incl.kImg1 Incl.kImg2 Incl.dzImg
  rw [ht1, ht2, sin_zero, cos_zero]
  have e1 := erf_neg ((u * b1.H + b1.D + b2.D + b2.H) * s)
  have e2 := erf_neg ((u * b1.H + b1.D + b2.D) * s)
  rw [show (u * b1.H * (0 * 0 * cos (b1.orientation - b2.orientation) - 1 * 1) + (0 * (cos b2.orientation * Incl.dx b1 b2 + sin b2.orientation * Incl.dy b1 b2) - 1 * (b1.D + b2.D))) * s
      = -((u * b1.H + b1.D + b2.D) * s) by ring, show (u * b1.H * (0 * 0 * cos (b1.orientation - b2.orientation) - 1 * 1)
      + (0 * (cos b2.orientation * Incl.dx b1 b2 + sin b2.orientation * Incl.dy b1 b2) - 1 * (b1.D + b2.D)) - b2.H) * s = -((u * b1.H + b1.D + b2.D + b2.H) * s) by ring, e1, e2]
  congr 1
  · congr 1; ring
  · ring

/-- The weights of all nodes against the weight of one. -/
theorem sum_lower {nodes : List (ℝ × ℝ)} {n : ℝ × ℝ} (hn : n ∈ nodes) (hw : ∀ m ∈ nodes, 0 ≤ m.2) {f : ℝ × ℝ → ℝ} {A η : ℝ} (hA : A ≤ f n + η) (hf : ∀ m ∈ nodes, -η ≤ f m) :
    n.2 * A - η * (nodes.map fun m => m.2).sum ≤ (nodes.map fun m => m.2 * f m).sum := by
  have key : ∀ l : List (ℝ × ℝ), (∀ m ∈ l, 0 ≤ m.2) → (∀ m ∈ l, -η ≤ f m) → -(η * (l.map fun m => m.2).sum) ≤ (l.map fun m => m.2 * f m).sum := by
    intro l
    induction l with
    | nil => intros; simp
    | cons m l ih =>
      intro h1 h2
      simp only [List.map_cons, List.sum_cons]
      have a1 := ih (fun x hx => h1 x (List.mem_cons_of_mem _ hx)) fun x hx => h2 x (List.mem_cons_of_mem _ hx)
      have a2 := mul_le_mul_of_nonneg_left (h2 m List.mem_cons_self) (h1 m List.mem_cons_self)
      nlinarith
  obtain ⟨l1, l2, rfl⟩ := List.append_of_mem hn
  have k1 := key l1 (fun x hx => hw x (by simp [hx])) fun x hx => hf x (by simp [hx])
  have k2 := key l2 (fun x hx => hw x (by simp [hx])) fun x hx => hf x (by simp [hx])
  have k3 := mul_le_mul_of_nonneg_left hA (hw n hn)
  simp only [List.map_append, List.map_cons, List.sum_append, List.sum_cons]
  nlinarith

/-- A source of length `H` whose node `n` is at the middle of the receiver, one metre long. -/
def longSource (H D : ℝ) : Borehole := ⟨H, D, 1 / 10, 0, 0, 0, 0⟩
def shortReceiver (H D u : ℝ) : Borehole := ⟨1, D + u * H - 1 / 2, 1 / 10, 5, 0, 0, 0⟩

/-- The integrand of the inclined solution against that for vertical boreholes. -/
theorem quadrature_point {a e S K H : ℝ} (ha0 : 0 < a) (hee : e = erf (a / 2)) (he : 0 < e) {nodes : List (ℝ × ℝ)} {n : ℝ × ℝ} (hn : n ∈ nodes) (hpos : 0 < n.2)
    (hw : ∀ m ∈ nodes, 0 ≤ m.2) (hu : ∀ m ∈ nodes, 0 ≤ m.1) (hS : S = (nodes.map fun m => m.2).sum) (hS0 : 0 < S) {D : ℝ} (hD1 : 1 ≤ D) (hD : 1 - erf (D * a) ≤ n.2 * e / S)
    (hK : 0 < K) (hHH : H = 3 * (K + 1) / (n.2 * e)) {b1 b2 : Borehole} (hdis : b1.distance b2 = 5) (hrr : Incl.rr b1 b2 = 25) (f1 : b1.H = H) (f2 : b2.H = 1) (f3 : b1.D = D)
    (f4 : b2.D = D + n.1 * H - 1 / 2) (f5 : b1.tilt = 0) (f6 : b2.tilt = 0) {s : ℝ} (hsa : a < s) :
    (K + 1) * integrand (pairOf b1 b2) true true s ≤ Incl.integrand b1 b2 nodes true true s := by
  have hH : 0 < H := by rw [hHH]; positivity
  have hn0 := mul_nonneg (hu n hn) hH.le
  have hD2 : 0 < b2.D := by rw [f4]; linarith
  have hg : (pairOf b1 b2).Ok := ⟨by show 0 < b1.distance b2; rw [hdis]; norm_num, by show 0 ≤ b1.H; rw [f1]; exact hH.le, by show 0 < b2.H; rw [f2]; norm_num⟩
  have hgH : 0 < (pairOf b1 b2).H1 := by show 0 < b1.H; rw [f1]; exact hH
  have hs0 : 0 < s := ha0.trans hsa
  have u1 := integrand_le hg hgH hs0
  have u2 : (pairOf b1 b2).dis = 5 := hdis
  have u3 : (pairOf b1 b2).H2 = 1 := f2
  rw [u2, u3, show -(5 : ℝ) ^ 2 = -25 by norm_num] at u1
  have y4 : ∀ m ∈ nodes, erf (D * a) ≤ erf ((m.1 * H + b1.D + b2.D) * s) := fun m hm => by
    refine erf_strictMono.monotone ?_
    have h1 := mul_nonneg (hu m hm) hH.le
    have h2 : D ≤ m.1 * H + b1.D + b2.D := by rw [f3]; linarith
    calc D * a ≤ D * s := mul_le_mul_of_nonneg_left hsa.le (by linarith)
      _ ≤ _ := mul_le_mul_of_nonneg_right h2 hs0.le
  obtain ⟨f, hf⟩ : ∃ f : ℝ × ℝ → ℝ, f = fun m => (erf ((m.1 * H + b1.D - b2.D) * s) - erf ((m.1 * H + b1.D - b2.D - 1) * s))
      - (erf ((m.1 * H + b1.D + b2.D + 1) * s) - erf ((m.1 * H + b1.D + b2.D) * s)) := ⟨_, rfl⟩
  have v1 : Incl.integrand b1 b2 nodes true true s = exp (-25 * s ^ 2) * (H / s) * (nodes.map fun m => m.2 * f m).sum := by
    unfold Incl.integrand
    rw [if_pos (by rfl)]
    simp only [node_rea_vertical f5 f6, node_img_vertical f5 f6]
    rw [← List.sum_map_mul_left]
    congr 1
    refine List.map_congr_left fun m _ => ?_
    rw [hrr, f1, f2, hf]
    ring
  have g1 : 2 * e ≤ f n + n.2 * e / S := by
    have y1 : (n.1 * H + b1.D - b2.D) * s = s / 2 := by rw [f3, f4]; ring
    have y2 : (n.1 * H + b1.D - b2.D - 1) * s = -(s / 2) := by rw [f3, f4]; ring
    have y3 : e ≤ erf (s / 2) := by rw [hee]; exact erf_strictMono.monotone (by linarith)
    rw [hf]
    simp only
    rw [y1, y2, erf_neg]
    linarith [erf_le_one ((n.1 * H + b1.D + b2.D + 1) * s), y4 n hn]
  have g2 : ∀ m ∈ nodes, -(n.2 * e / S) ≤ f m := by
    intro m hm
    have y5 : erf ((m.1 * H + b1.D - b2.D - 1) * s) ≤ erf ((m.1 * H + b1.D - b2.D) * s) := erf_strictMono.monotone (mul_le_mul_of_nonneg_right (by linarith) hs0.le)
    rw [hf]
    simp only
    linarith [erf_le_one ((m.1 * H + b1.D + b2.D + 1) * s), y4 m hm]
  have v2 := sum_lower hn hw g1 g2
  rw [← hS, div_mul_cancel₀ _ hS0.ne'] at v2
  rw [v1]
  have w1 : (K + 1) * (exp (-25 * s ^ 2) * (2 * 1 / s)) ≤ exp (-25 * s ^ 2) * (H / s) * (n.2 * (2 * e) - n.2 * e) := by
    rw [hHH, show exp (-25 * s ^ 2) * (3 * (K + 1) / (n.2 * e) / s) * (n.2 * (2 * e) - n.2 * e) = (K + 1) * (exp (-25 * s ^ 2) * (3 / s)) by field_simp; ring]
    gcongr
    norm_num
  exact (mul_le_mul_of_nonneg_left u1 (by positivity)).trans (w1.trans (mul_le_mul_of_nonneg_left v2 (by positivity)))

/-- The quadrature of the inclined solution overestimates the response of the receiver by any factor. -/
theorem quadrature_fails {alpha t : ℝ} (ha : 0 < alpha) (ht : 0 < t) {nodes : List (ℝ × ℝ)} {n : ℝ × ℝ} (hn : n ∈ nodes) (hpos : 0 < n.2) (hw : ∀ m ∈ nodes, 0 ≤ m.2)
    (hu : ∀ m ∈ nodes, 0 ≤ m.1) {K : ℝ} (hK : 0 < K) :
    ∃ H D : ℝ, 0 < H ∧ 1 ≤ D ∧ K * fls t alpha (pairOf (longSource H D) (shortReceiver H D n.1)) true true
      < Incl.fls t alpha (longSource H D) (shortReceiver H D n.1) nodes true true := by
  obtain ⟨a, haa⟩ : ∃ a, a = lower alpha t := ⟨_, rfl⟩
  have ha0 : 0 < a := haa ▸ lower_pos ha ht
  obtain ⟨e, hee⟩ : ∃ e, e = erf (a / 2) := ⟨_, rfl⟩
  have he : 0 < e := by rw [hee, ← erf_zero]; exact erf_strictMono (by linarith)
  obtain ⟨S, hS⟩ : ∃ S, S = (nodes.map fun m => m.2).sum := ⟨_, rfl⟩
  have hSn : n.2 ≤ S := by
    rw [hS]
    exact List.single_le_sum (by simpa using fun b a h => hw (a, b) h) _ (List.mem_map.mpr ⟨n, hn, rfl⟩)
  have hS0 : 0 < S := hpos.trans_le hSn
  obtain ⟨D, hD1, hD⟩ : ∃ D, 1 ≤ D ∧ 1 - erf (D * a) ≤ n.2 * e / S := by
    have h1 : Tendsto (fun D : ℝ => 1 - erf (D * a)) atTop (nhds (1 - 1)) :=
      (erf_tendsto.comp (tendsto_id.atTop_mul_const ha0)).const_sub 1
    rw [sub_self] at h1
    obtain ⟨D, h2, h3⟩ := ((h1.eventually (ge_mem_nhds (show 0 < n.2 * e / S by positivity))).and (eventually_ge_atTop 1)).exists
    exact ⟨D, h3, h2⟩
  obtain ⟨H, hHH⟩ : ∃ H, H = 3 * (K + 1) / (n.2 * e) := ⟨_, rfl⟩
  have hH : 0 < H := by rw [hHH]; positivity
  refine ⟨H, D, hH, hD1, ?_⟩
  obtain ⟨b1, hb1⟩ : ∃ b, b = longSource H D := ⟨_, rfl⟩
  obtain ⟨b2, hb2⟩ : ∃ b, b = shortReceiver H D n.1 := ⟨_, rfl⟩
  have hn0 := hu n hn
  have hdis : b1.distance b2 = 5 := by
    rw [hb1, hb2]
    simp [Borehole.distance, longSource, shortReceiver]
    norm_num
  have hrr : Incl.rr b1 b2 = 25 := by
    rw [hb1, hb2]
    simp [Incl.rr, Incl.dx, Incl.dy, longSource, shortReceiver]
    norm_num
  have f1 : b1.H = H := by rw [hb1]; rfl
  have f2 : b2.H = 1 := by rw [hb2]; rfl
  have f3 : b1.D = D := by rw [hb1]; rfl
  have f4 : b2.D = D + n.1 * H - 1 / 2 := by rw [hb2]; rfl
  have f5 : b1.tilt = 0 := by rw [hb1]; rfl
  have f6 : b2.tilt = 0 := by rw [hb2]; rfl
  have f7 : b1.rb = 1 / 10 := by rw [hb1]; rfl
  have hD2 : 0 < b2.D := by rw [f4]; linarith [mul_nonneg hn0 hH.le]
  have hg : (pairOf b1 b2).Ok := ⟨by show 0 < b1.distance b2; rw [hdis]; norm_num, by show 0 ≤ b1.H; rw [f1]; exact hH.le, by show 0 < b2.H; rw [f2]; norm_num⟩
  have hgH : 0 < (pairOf b1 b2).H1 := by show 0 < b1.H; rw [f1]; exact hH
  rw [← hb1, ← hb2]
  have hpt : ∀ s ∈ Set.Ioi a, (K + 1) * integrand (pairOf b1 b2) true true s ≤ Incl.integrand b1 b2 nodes true true s := fun s hs =>
    quadrature_point ha0 hee he hn hpos hw hu hS hS0 hD1 hD hK hHH hdis hrr f1 f2 f3 f4 f5 f6 hs
  have hap : Incl.Apart b1 b2 nodes := by
    refine ⟨by rw [f2]; norm_num, fun m _ v _ => ?_, fun m _ v _ => ?_⟩
    · have := Incl.rr_eq b1 b2
      rw [hrr] at this
      unfold Incl.dx Incl.dy at this
      unfold Incl.dist2 Incl.px Incl.py Incl.pz
      rw [f5, f6, sin_zero, cos_zero]
      nlinarith [sq_nonneg (b1.D + m.1 * b1.H * 1 - (b2.D + v * 1))]
    · unfold Incl.dist2img Incl.px Incl.py Incl.pz
      rw [f5, f6, sin_zero, cos_zero, hb1, hb2]
      simp only [longSource, shortReceiver]
      have := sq_nonneg (-(D + m.1 * H * 1) - (D + n.1 * H - 1 / 2 + v * 1))
      nlinarith
  have hi1 : IntegrableOn (integrand (pairOf b1 b2) true true) (Set.Ioi a) := integrand_integrableOn hg true true ha0.le
  have hi2 : IntegrableOn (Incl.integrand b1 b2 nodes true true) (Set.Ioi a) := Incl.integrand_integrableOn hap ha0.le true true
  have hm := setIntegral_mono_on (hi1.const_mul (K + 1)) hi2 measurableSet_Ioi hpt
  rw [integral_const_mul] at hm
  have hp := ((positive_increasing ha hg hgH ht (lt_add_one t)).2.2.2 (by show 0 ≤ b1.D; rw [f3]; linarith) hD2.le).1
  have c1 : fls t alpha (pairOf b1 b2) true true = 0.5 / 1 * ∫ s in Set.Ioi a, integrand (pairOf b1 b2) true true s := by
    rw [haa]; unfold fls quad; rw [show (pairOf b1 b2).H2 = 1 from f2]
  have c2 : Incl.fls t alpha b1 b2 nodes true true = 0.5 / 1 * ∫ s in Set.Ioi a, Incl.integrand b1 b2 nodes true true s := by
    rw [haa]; unfold Incl.fls quad; rw [f2]
  rw [c1] at hp ⊢
  rw [c2]
  nlinarith

/-- The exact evaluation (no approximation) of both sources. -/
def exactOpts (alpha : ℝ) (nodes : List (ℝ × ℝ)) (N : ℤ) : FlsOpts := ⟨alpha, true, true, false, nodes, N⟩

theorem vertical_of_zero {b : Borehole} (h : b.tilt = 0) : isVertical b = true := by
  unfold isVertical tilted
  rw [h]
  simp

theorem used_mixed {l1 l2 : List Borehole} (hm : ∃ b ∈ l1 ++ l2, isVertical b = false) (o : FlsOpts) (time : When) (b1 b2 : Borehole) :
    usedFor o time l1 l2 b1 b2 = flsInclined o b1 b2 time := by
  unfold usedFor
  rw [if_neg]
  obtain ⟨b, hb, hv⟩ := hm
  intro h
  rw [Bool.and_eq_true, List.all_eq_true, List.all_eq_true] at h
  rcases List.mem_append.mp hb with h1 | h1
  · rw [h.1 b h1] at hv; exact absurd hv (by simp)
  · rw [h.2 b h1] at hv; exact absurd hv (by simp)

/-- **C110** (two vertical boreholes in lists with an inclined borehole).  The value in the table and the value for the two boreholes alone are both averages, along the
source, of the mean over the receiver of the temperature of a point source and of its image: the weighted sum over the nodes of the quadrature, and the integral. -/
theorem lists_mixed {alpha t : ℝ} {nodes : List (ℝ × ℝ)} {N : ℤ} {l1 l2 : List Borehole} (hm : ∃ b ∈ l1 ++ l2, isVertical b = false) {i j : ℕ} {b1 b2 : Borehole}
    (hi : l2[i]? = some b2) (hj : l1[j]? = some b1) (hr : 0 < b1.rb) (h1 : 0 < b1.H) (h2 : 0 < b2.H) (hD1 : 0 < b1.D) (hD2 : 0 ≤ b2.D) (ht1 : b1.tilt = 0) (ht2 : b2.tilt = 0)
    (hn : ∀ n ∈ nodes, 0 ≤ n.1) :
    ∃ r v w, finiteLineSource (exactOpts alpha nodes N) (.at t) (.many l1) (.many l2) = some r ∧ r.entry i j = some (.one v) ∧
      finiteLineSource (exactOpts alpha nodes N) (.at t) (.one b1) (.one b2) = some (.pair (.one w)) ∧
      v = b1.H / 2 * (nodes.map fun n => n.2 * pointOver alpha t (b1.distance b2) b2.D b2.H (b1.D + n.1 * b1.H)).sum ∧
      w = b1.H / 2 * ∫ u in (0 : ℝ)..1, pointOver alpha t (b1.distance b2) b2.D b2.H (b1.D + u * b1.H) := by
  obtain ⟨r, hr'⟩ := Option.isSome_iff_exists.mp (lists_return (exactOpts alpha nodes N) (.at t) (.many l1) (.many l2) fun h => absurd h (by simp [exactOpts]))
  have hl : table l1 l2 (usedFor (exactOpts alpha nodes N) (.at t) l1 l2) = some r := by rw [← flsLists_eq]; exact hr'
  refine ⟨r, _, _, hr', ?_, ?_, rfl, rfl⟩
  · rw [(table_entries hl).2 i j b2 b1 hi hj, used_mixed hm, ← inclined_along t alpha hr h2 hD1 hD2 ht1 ht2 h1 hn]
    rfl
  · rw [← vertical_along t alpha hr h1 h2]
    show flsPair _ _ _ _ = _
    unfold flsPair
    rw [vertical_of_zero ht1, vertical_of_zero ht2]
    rfl

/-- **C110** does not hold in general.  Whatever the nodes and (positive) weights of the quadrature, the time and the inclined borehole `b3`: there are two vertical boreholes
such that the value in the table of the sources `[b1, b3]` exceeds `K` times the value for `b1` and `b2` alone. -/
theorem lists_fail {alpha t : ℝ} (ha : 0 < alpha) (ht : 0 < t) {nodes : List (ℝ × ℝ)} (N : ℤ) (hne : nodes ≠ []) (hw : ∀ n ∈ nodes, 0 < n.2) (hu : ∀ n ∈ nodes, 0 ≤ n.1) {b3 : Borehole}
    (h3 : isVertical b3 = false) {K : ℝ} (hK : 0 < K) :
    ∃ b1 b2 : Borehole, b1.tilt = 0 ∧ b2.tilt = 0 ∧ 0 < b1.H ∧ 0 < b2.H ∧ 0 < b1.D ∧ 0 < b2.D ∧ 0 < b1.rb ∧ b1.rb = b2.rb ∧ b1.rb < b1.distance b2 ∧
      ∃ r v w, finiteLineSource (exactOpts alpha nodes N) (.at t) (.many [b1, b3]) (.one b2) = some r ∧ r.entry 0 0 = some (.one v) ∧
        finiteLineSource (exactOpts alpha nodes N) (.at t) (.one b1) (.one b2) = some (.pair (.one w)) ∧ 0 < w ∧ K * w < v := by
  obtain ⟨n, hn⟩ := List.exists_mem_of_ne_nil _ hne
  obtain ⟨H, D, hH, hD, hlt⟩ := quadrature_fails ha ht hn (hw n hn) (fun m hm => (hw m hm).le) hu hK
  have hn0 := mul_nonneg (hu n hn) hH.le
  have hD2 : 0 < (shortReceiver H D n.1).D := by show 0 < D + n.1 * H - 1 / 2; linarith
  have hdis : (longSource H D).distance (shortReceiver H D n.1) = 5 := by
    simp [Borehole.distance, longSource, shortReceiver]
    norm_num
  refine ⟨longSource H D, shortReceiver H D n.1, rfl, rfl, hH, by norm_num [shortReceiver], by show 0 < D; linarith, hD2, by norm_num [longSource], rfl, by rw [hdis]; norm_num [longSource], ?_⟩
  obtain ⟨r, hr'⟩ := Option.isSome_iff_exists.mp (lists_return (exactOpts alpha nodes N) (.at t) (.many [longSource H D, b3]) (.one (shortReceiver H D n.1)) fun h => absurd h (by simp [exactOpts]))
  have hl : table [longSource H D, b3] [shortReceiver H D n.1] (usedFor (exactOpts alpha nodes N) (.at t) [longSource H D, b3] [shortReceiver H D n.1]) = some r := by rw [← flsLists_eq]; exact hr'
  refine ⟨r, _, _, hr', ?_, ?_, ?_, hlt⟩
  · rw [(table_entries hl).2 0 0 _ _ rfl rfl, used_mixed ⟨b3, by simp, h3⟩]
    rfl
  · show flsPair _ _ _ _ = _
    unfold flsPair
    rw [vertical_of_zero (b := longSource H D) rfl, vertical_of_zero (b := shortReceiver H D n.1) rfl]
    rfl
  · have hg : (pairOf (longSource H D) (shortReceiver H D n.1)).Ok := ⟨by show 0 < (longSource H D).distance _; rw [hdis]; norm_num, hH.le, by norm_num [pairOf, shortReceiver]⟩
    exact ((positive_increasing ha hg hH ht (lt_add_one t)).2.2.2 (by show 0 ≤ D; linarith) hD2.le).1

/-- Two vertical sources and one vertical receiver, several times, the default approximation. -/
example : ∃ r, finiteLineSource ⟨1 / 10 ^ 6, true, true, true, [(1 / 2, 1)], 10⟩ (.array [3600, 7200]) (.many [⟨150, 4, 0.075, 0, 0, 0, 0⟩, ⟨100, 2, 0.075, 5, 0, 0, 0⟩])
    (.one ⟨150, 4, 0.075, 0, 7, 0, 0⟩) = some r ∧ r.IsTable 1 2 := by
  obtain ⟨ab, hab, -⟩ := erfCoeffs_some (N := 10) (by norm_num) (by norm_num)
  obtain ⟨r, hr⟩ := Option.isSome_iff_exists.mp (lists_return ⟨1 / 10 ^ 6, true, true, true, [(1 / 2, 1)], 10⟩ (.array [3600, 7200])
    (.many [⟨150, 4, 0.075, 0, 0, 0, 0⟩, ⟨100, 2, 0.075, 5, 0, 0, 0⟩]) (.one ⟨150, 4, 0.075, 0, 7, 0, 0⟩) fun _ => by rw [hab]; rfl)
  refine ⟨r, hr, (lists_pairwise_partial _ _ _ _ (fun b1 b2 h => by simp at h) (Or.inl fun b hb => ?_) hr).1⟩
  simp [Who.toList] at hb
  rcases hb with rfl | rfl | rfl <;> exact vertical_of_zero rfl

/-- An inclined borehole changes the response of two vertical ones, with the quadrature with one node. -/
example := lists_fail (alpha := 1 / 10 ^ 6) (t := 3600) (by norm_num) (by norm_num) (nodes := [(1 / 2, 1)]) 10 (by simp) (by simp) (by simp)
  (b3 := ⟨150, 4, 0.075, 50, 0, 1 / 2, 0⟩) (by unfold isVertical tilted; norm_num [abs_of_pos]) (K := 2) (by norm_num)

end Verif.FLS
