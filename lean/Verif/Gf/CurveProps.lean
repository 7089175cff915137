import Verif.Gf.CurveModel
import Verif.Gf.CausalGfProps
import Verif.Gf.ScaleProps
import Verif.Sol.EqGroups

/-!
# C163: the figure of a g-function

Each point of a curve is a time and its value: the abscissa is the logarithm of the time over the characteristic time of the field, and the ordinate is the value for this time.  This holds for
the times and values of the last evaluation, after any evaluations before.  It fails after an evaluation that raises.
-/

noncomputable section

namespace Verif.Gf

open Bore FLS Sol

/-! ### Specification -/

/-- The point `p` shows the value `y` at the time `t`, for boreholes of the lengths `Hs`. -/
def IsPoint (Hs : List ℝ) (alpha t y : ℝ) (p : WithBot ℝ × ℝ) : Prop :=
  p.2 = y ∧ (t = 0 → p.1 = ⊥) ∧ (0 < t → ∃ x : ℝ, p.1 = x ∧ Real.exp x * (Hs.sum / Hs.length) ^ 2 = 9 * alpha * t)

/-- The points `c` show the values `ys` at the times `t`, in order. -/
def Shows (Hs : List ℝ) (alpha : ℝ) (t ys : List ℝ) (c : List (WithBot ℝ × ℝ)) : Prop :=
  t.length = ys.length ∧ List.Forall₂ (fun a p => IsPoint Hs alpha a.1 a.2 p) (List.zip t ys) c

/-- One value for each time. -/
def FullValues (t : List ℝ) : Values → Prop
  | .one g => g.length = t.length
  | .many k g => ∀ i < k, ∀ j < k, (g i j).length = t.length

/-- The index `i` of a list of length `k`, from its beginning or its end. -/
def Selects (k : ℕ) (i : ℤ) (n : ℕ) : Prop := n < k ∧ (i = n ∨ i = (n : ℤ) - k)

/-- The curves show the values at the times `t`: one curve, or the curves of the pairs. -/
def Displays (Hs : List ℝ) (alpha : ℝ) (t : List ℝ) (pairs : ℕ → List (ℤ × ℤ)) : Values → List Curve → Prop
  | .one g, cs => ∃ c, cs = [(none, c)] ∧ Shows Hs alpha t g c
  | .many k g, cs => List.Forall₂ (fun p c => c.1 = some p ∧ ∃ i j, Selects k p.1 i ∧ Selects k p.2 j ∧ Shows Hs alpha t (g i j) c.2) (pairs k) cs

/-- The times of the last evaluation with accepted times. -/
def lastTimes (as : List (List ℝ)) : Option (List ℝ) := (as.filterMap times).getLast?

/-! ### Points -/

theorem charTime_pos {Hs : List ℝ} {alpha : ℝ} (hH : Hs ≠ []) (hp : ∀ H ∈ Hs, 0 < H) (ha : 0 < alpha) : 0 < charTime Hs alpha := by
  have h1 : 0 < Hs.sum := List.sum_pos Hs hp hH
  have h2 : (0 : ℝ) < Hs.length := by exact_mod_cast List.length_pos_iff.mpr hH
  unfold charTime
  positivity

theorem lnTime_point {Hs : List ℝ} {alpha : ℝ} (hH : Hs ≠ []) (hp : ∀ H ∈ Hs, 0 < H) (ha : 0 < alpha) (t y : ℝ) : IsPoint Hs alpha t y (lnTime (charTime Hs alpha) t, y) := by
  have hts := charTime_pos hH hp ha
  refine ⟨rfl, ?_, fun ht => ⟨Real.log (t / charTime Hs alpha), ?_, ?_⟩⟩
  · rintro rfl
    simp [lnTime]
  · have : t / charTime Hs alpha ≠ 0 := (div_pos ht hts).ne'
    simp [lnTime, this]
  · rw [Real.exp_log (div_pos ht hts)]
    have h1 : 0 < Hs.sum := List.sum_pos Hs hp hH
    have h2 : (0 : ℝ) < Hs.length := by exact_mod_cast List.length_pos_iff.mpr hH
    unfold charTime
    field_simp

theorem zip_shows {Hs : List ℝ} {alpha : ℝ} (hH : Hs ≠ []) (hp : ∀ H ∈ Hs, 0 < H) (ha : 0 < alpha) :
    ∀ t ys : List ℝ, List.Forall₂ (fun a p => IsPoint Hs alpha a.1 a.2 p) (List.zip t ys) (List.zip (t.map (lnTime (charTime Hs alpha))) ys)
  | [], _ => by simp
  | _ :: _, [] => by simp
  | a :: t, y :: ys => by
    rw [List.map_cons, List.zip_cons_cons, List.zip_cons_cons]
    exact List.Forall₂.cons (lnTime_point hH hp ha a y) (zip_shows hH hp ha t ys)

theorem plotted_shows {Hs : List ℝ} {alpha : ℝ} (hH : Hs ≠ []) (hp : ∀ H ∈ Hs, 0 < H) (ha : 0 < alpha) {t ys : List ℝ} (hl : ys.length = t.length) :
    ∃ c, plotted (t.map (lnTime (charTime Hs alpha))) ys = some c ∧ Shows Hs alpha t ys c := by
  refine ⟨_, ?_, hl.symm, zip_shows hH hp ha t ys⟩
  unfold plotted
  rw [if_pos (by rw [List.length_map, hl])]

theorem axisIndex_spec (k : ℕ) (i : ℤ) (n : ℕ) : axisIndex k i = some n ↔ Selects k i n := by
  unfold axisIndex Selects
  split_ifs with h1 h2 h2
  · rw [Option.some.injEq]; omega
  · simp only [false_iff]; omega
  · rw [Option.some.injEq]; omega
  · simp only [false_iff]; omega

/-! ### Evaluations -/

theorem evaluations_snoc (solve : List ℝ → Option Values) (o : Stored) (as : List (List ℝ)) (a : List ℝ) :
    evaluations solve o (as ++ [a]) = (evaluate solve (evaluations solve o as) a).1 := by
  simp [evaluations]

theorem lastTimes_snoc (as : List (List ℝ)) (a : List ℝ) : lastTimes (as ++ [a]) = (times a).orElse fun _ => lastTimes as := by
  unfold lastTimes
  rw [List.filterMap_append]
  cases h : times a with
  | none => simp [h]
  | some t => simp [h]

theorem evaluations_time (solve : List ℝ → Option Values) (as : List (List ℝ)) : (evaluations solve ⟨none, none⟩ as).time = lastTimes as := by
  induction as using List.reverseRecOn with
  | nil => rfl
  | append_singleton as a ih =>
    rw [evaluations_snoc, lastTimes_snoc]
    unfold evaluate
    cases h : times a with
    | none => simpa using ih
    | some t => cases h2 : solve t <;> simp [h2]

/-- The stored values are those of the last times for which `solve` returned. -/
theorem evaluations_value (solve : List ℝ → Option Values) (as : List (List ℝ)) : (evaluations solve ⟨none, none⟩ as).g = (((as.filterMap times).filterMap solve).getLast?) := by
  induction as using List.reverseRecOn with
  | nil => rfl
  | append_singleton as a ih =>
    rw [evaluations_snoc, List.filterMap_append, List.filterMap_append]
    unfold evaluate
    cases h : times a with
    | none => simpa [h] using ih
    | some t =>
      cases h2 : solve t with
      | none => simpa [h, h2] using ih
      | some v => simp [h, h2]

theorem evaluations_solved {solve : List ℝ → Option Values} {as : List (List ℝ)} {t : List ℝ} {v : Values} (h : lastTimes as = some t) (hv : solve t = some v) :
    evaluations solve ⟨none, none⟩ as = ⟨some t, some v⟩ := by
  have h1 := evaluations_time solve as
  have h2 := evaluations_value solve as
  obtain ⟨l, hl⟩ : ∃ l, as.filterMap times = l ++ [t] := by
    unfold lastTimes at h
    exact ⟨_, (List.dropLast_append_getLast? t h).symm⟩
  rw [hl, List.filterMap_append] at h2
  simp only [List.filterMap_cons, hv, List.filterMap_nil, List.getLast?_append, List.getLast?_singleton, Option.some_or] at h2
  rw [h] at h1
  cases e : evaluations solve ⟨none, none⟩ as
  simp_all

/-! ### Properties -/

theorem mapM_of_forall {α β : Type} {f : α → Option β} {R : α → β → Prop} : ∀ {l : List α}, (∀ a ∈ l, ∃ b, f a = some b ∧ R a b) → ∃ m, l.mapM f = some m ∧ List.Forall₂ R l m
  | [], _ => ⟨[], by simp, List.Forall₂.nil⟩
  | a :: l, h => by
    obtain ⟨b, e1, hb⟩ := h a (by simp)
    obtain ⟨m, e2, hm⟩ := mapM_of_forall (l := l) fun x hx => h x (by simp [hx])
    exact ⟨b :: m, by simp [e1, e2], List.Forall₂.cons hb hm⟩

theorem drawG_displays {Hs : List ℝ} {alpha : ℝ} (hH : Hs ≠ []) (hp : ∀ H ∈ Hs, 0 < H) (ha : 0 < alpha) {t : List ℝ} {v : Values} (hf : FullValues t v)
    (which : Option (List (ℤ × ℤ))) (hw : ∀ k g, v = .many k g → ∀ p ∈ which.getD (allPairs k), (∃ i, Selects k p.1 i) ∧ ∃ j, Selects k p.2 j) :
    ∃ cs, drawG Hs alpha ⟨some t, some v⟩ which = some cs ∧ Displays Hs alpha t (fun k => which.getD (allPairs k)) v cs := by
  cases v with
  | one g =>
    obtain ⟨c, h1, h2⟩ := plotted_shows hH hp ha hf
    exact ⟨[(none, c)], by simp [drawG, h1], c, rfl, h2⟩
  | many k g =>
    unfold drawG Displays
    dsimp only
    refine mapM_of_forall fun p hpm => ?_
    obtain ⟨⟨i, hi⟩, j, hj⟩ := hw k g rfl p hpm
    obtain ⟨c, h1, h2⟩ := plotted_shows hH hp ha (hf i hi.1 j hj.1)
    refine ⟨(some p, c), ?_, rfl, i, j, hi, hj, h2⟩
    unfold curveOf
    rw [(axisIndex_spec k p.1 i).mpr hi, (axisIndex_spec k p.2 j).mpr hj]
    dsimp only
    rw [h1]
    rfl

theorem allPairs_mem (k : ℕ) (p : ℤ × ℤ) : p ∈ allPairs k ↔ 0 ≤ p.1 ∧ p.1 < k ∧ 0 ≤ p.2 ∧ p.2 < k := by
  unfold allPairs
  simp only [List.mem_flatMap, List.mem_map, List.mem_range]
  constructor
  · rintro ⟨j, hj, i, hi, rfl⟩
    dsimp only
    omega
  · rintro ⟨h1, h2, h3, h4⟩
    exact ⟨p.2.toNat, by omega, p.1.toNat, by omega, by ext <;> simp <;> omega⟩

/-- **C163** (partial: the last evaluation with accepted times returns).  After any evaluations, returned or not, the figure shows the values of the last evaluation at its times; an evaluation
whose times are refused changes nothing.  With several mass flow rates the curves are those of `which`, in this order. -/
theorem drawn_partial {Hs : List ℝ} {alpha : ℝ} (hH : Hs ≠ []) (hp : ∀ H ∈ Hs, 0 < H) (ha : 0 < alpha) {solve : List ℝ → Option Values} {as : List (List ℝ)} {t : List ℝ} {v : Values}
    (h : lastTimes as = some t) (hv : solve t = some v) (hf : FullValues t v) {which : Option (List (ℤ × ℤ))}
    (hw : ∀ l, which = some l → ∀ k g, v = .many k g → ∀ p ∈ l, (∃ i, Selects k p.1 i) ∧ ∃ j, Selects k p.2 j) :
    ∃ cs, drawG Hs alpha (evaluations solve ⟨none, none⟩ as) which = some cs ∧ Displays Hs alpha t (fun k => which.getD (allPairs k)) v cs := by
  rw [evaluations_solved h hv]
  refine drawG_displays hH hp ha hf which fun k g e p hm => ?_
  cases which with
  | some l => exact hw l rfl k g e p hm
  | none =>
    have := (allPairs_mem k p).mp hm
    exact ⟨⟨p.1.toNat, by omega, by left; omega⟩, p.2.toNat, by omega, by left; omega⟩

/-- **C163** (all curves).  Without `which` there is one curve for each pair of flow rates. -/
theorem drawn_pairs (k : ℕ) : (allPairs k).Nodup ∧ (allPairs k).length = k * k ∧ ∀ p, p ∈ allPairs k ↔ 0 ≤ p.1 ∧ p.1 < k ∧ 0 ≤ p.2 ∧ p.2 < k := by
  refine ⟨?_, ?_, allPairs_mem k⟩
  · unfold allPairs
    rw [List.nodup_flatMap]
    refine ⟨fun j _ => (List.nodup_range).map fun a b h => by simpa using h, List.nodup_range.imp fun {a b} hab => ?_⟩
    intro x h1 h2
    simp only [List.mem_map, List.mem_range] at h1 h2
    obtain ⟨i, -, rfl⟩ := h1
    obtain ⟨i', -, e⟩ := h2
    simp only [Prod.mk.injEq, Nat.cast_inj] at e
    exact hab e.2.symm
  · simp [allPairs]

/-- **C163** (construction).  An object constructed with times is the one constructed without, after its evaluation; if this raises there is no object. -/
theorem built_spec (solve : List ℝ → Option Values) (a : List ℝ) :
    built solve none = some ⟨none, none⟩ ∧ built solve (some a) = ((times a).bind solve).map fun _ => evaluations solve ⟨none, none⟩ [a] := by
  refine ⟨rfl, ?_⟩
  unfold built evaluations evaluate
  cases h : times a with
  | none => simp [h]
  | some t => cases h2 : solve t <;> simp [h, h2]

/-- **C163** (nothing evaluated).  Without an evaluation that returned, the figure raises. -/
theorem drawn_nothing (Hs : List ℝ) (alpha : ℝ) {solve : List ℝ → Option Values} {as : List (List ℝ)} (h : ∀ a ∈ as, (times a).bind solve = none) (which : Option (List (ℤ × ℤ))) :
    drawG Hs alpha (evaluations solve ⟨none, none⟩ as) which = none := by
  have h2 := evaluations_value solve as
  have e : (as.filterMap times).filterMap solve = [] := by
    rw [List.filterMap_filterMap]
    exact List.filterMap_eq_nil_iff.mpr h
  rw [e] at h2
  unfold drawG
  rw [h2]
  cases (evaluations solve ⟨none, none⟩ as).time <;> rfl

/-- **C163** (violated).  After an evaluation that raises in the solution, the figure has the times of this evaluation and the values of the one before; it raises when their numbers differ. -/
theorem drawn_stale (Hs : List ℝ) (alpha : ℝ) {solve : List ℝ → Option Values} {as : List (List ℝ)} {t g : List ℝ} (h : lastTimes as = some t) (hv : solve t = some (.one g)) {a t' : List ℝ}
    (ha : times a = some t') (hn : solve t' = none) (which : Option (List (ℤ × ℤ))) :
    drawG Hs alpha (evaluations solve ⟨none, none⟩ (as ++ [a])) which =
      if t'.length = g.length then some [(none, List.zip (t'.map (lnTime (charTime Hs alpha))) g)] else none := by
  rw [evaluations_snoc, evaluations_solved h hv]
  unfold evaluate
  rw [ha]
  dsimp only
  rw [hn]
  unfold drawG plotted
  dsimp only
  rw [List.length_map]
  split_ifs <;> rfl

/-! ### Fields of another size -/

theorem lnTime_scale {c alpha alpha' : ℝ} (hc : 0 < c) (ha : 0 < alpha) (ha' : 0 < alpha') (Hs : List ℝ) (t : ℝ) :
    lnTime (charTime (Hs.map (c * ·)) alpha') (c ^ 2 * alpha / alpha' * t) = lnTime (charTime Hs alpha) t := by
  have e : c ^ 2 * alpha / alpha' * t / charTime (Hs.map (c * ·)) alpha' = t / charTime Hs alpha := by
    unfold charTime
    rw [List.sum_map_mul_left, List.map_id', List.length_map]
    rcases eq_or_ne (Hs.sum / Hs.length) 0 with h | h
    · rw [mul_div_assoc c Hs.sum, h]
      simp
    · rw [mul_div_assoc c Hs.sum]
      generalize Hs.sum / (Hs.length : ℝ) = m at h
      field_simp
  unfold lnTime
  rw [e]

theorem times_scale {lam : ℝ} (hl : 0 < lam) (a : List ℝ) : times (a.map (lam * ·)) = (times a).map fun t => t.map (lam * ·) := by
  unfold times
  dsimp only
  have e : (a.map (lam * ·)).map (fun x => max x 0) = (a.map fun x => max x 0).map (lam * ·) := by
    rw [List.map_map, List.map_map]
    refine List.map_congr_left fun x _ => ?_
    simp only [Function.comp]
    rw [mul_max_of_nonneg _ _ hl.le, mul_zero]
  rw [e]
  generalize (a.map fun x => max x 0) = t
  have hz : List.zip (t.map (lam * ·)) (t.map (lam * ·)).tail = (List.zip t t.tail).map fun p => (lam * p.1, lam * p.2) := by
    rw [← List.map_tail, List.zip_map]
    rfl
  rw [List.length_map, hz]
  have hiff : (∀ p ∈ (List.zip t t.tail).map fun p => (lam * p.1, lam * p.2), p.1 ≤ p.2) ↔ ∀ p ∈ List.zip t t.tail, p.1 ≤ p.2 := by
    simp only [List.forall_mem_map]
    exact forall₂_congr fun p _ => mul_le_mul_iff_right₀ hl
  simp only [hiff]
  split_ifs <;> rfl

/-- The figure of a field of another size, from g-functions that agree. -/
theorem drawn_scale {c alpha alpha' : ℝ} (hc : 0 < c) (ha : 0 < alpha) (ha' : 0 < alpha') (Hs : List ℝ) {solve solve' : List ℝ → Option Values}
    (hs : ∀ t, solve' (t.map (c ^ 2 * alpha / alpha' * ·)) = solve t) (as : List (List ℝ)) (which : Option (List (ℤ × ℤ))) :
    drawG (Hs.map (c * ·)) alpha' (evaluations solve' ⟨none, none⟩ (as.map fun a => a.map (c ^ 2 * alpha / alpha' * ·))) which =
      drawG Hs alpha (evaluations solve ⟨none, none⟩ as) which := by
  have hl : 0 < c ^ 2 * alpha / alpha' := by positivity
  have hx : ∀ t : List ℝ, (t.map (c ^ 2 * alpha / alpha' * ·)).map (lnTime (charTime (Hs.map (c * ·)) alpha')) = t.map (lnTime (charTime Hs alpha)) := fun t => by
    rw [List.map_map]
    exact List.map_congr_left fun x _ => lnTime_scale hc ha ha' Hs x
  have key : ∀ as : List (List ℝ), evaluations solve' ⟨none, none⟩ (as.map fun a => a.map (c ^ 2 * alpha / alpha' * ·)) =
      ⟨(evaluations solve ⟨none, none⟩ as).time.map fun t => t.map (c ^ 2 * alpha / alpha' * ·), (evaluations solve ⟨none, none⟩ as).g⟩ := by
    intro as
    induction as using List.reverseRecOn with
    | nil => rfl
    | append_singleton as a ih =>
      rw [List.map_append, List.map_singleton, evaluations_snoc, evaluations_snoc, ih]
      unfold evaluate
      rw [times_scale hl]
      cases h : times a with
      | none => simp
      | some t =>
        simp only [Option.map_some, hs]
        cases h2 : solve t <;> simp
  rw [key]
  obtain ⟨o, ho⟩ : ∃ o, o = evaluations solve ⟨none, none⟩ as := ⟨_, rfl⟩
  rw [← ho]
  obtain ⟨t, v⟩ := o
  unfold drawG
  cases t with
  | none => rfl
  | some t =>
    cases v with
    | none => rfl
    | some v =>
      cases v with
      | one g =>
        simp only [Option.map_some]
        rw [hx]
      | many k g =>
        simp only [Option.map_some]
        rw [hx]

/-- **C163** (dimensionless figure).  With a uniform heat extraction rate or a uniform temperature: all lengths multiplied by `c` and another diffusivity give the same figure, when the times are
those with the same dimensionless time. -/
theorem figure_scale {c alpha alpha' : ℝ} (hc : 0 < c) (ha : 0 < alpha) (ha' : 0 < alpha') {F F' : ℝ → Bool → Borehole → Borehole → ℝ} (hK : Homogeneous c (c ^ 2 * alpha / alpha') F F')
    (bs : List Borehole) (ns : List ℕ) (rs : List (List ℝ)) (thr : ℝ) (as : List (List ℝ)) :
    (drawG ((bs.map (scaleBore c)).map fun b => b.H) alpha' (evaluations (fun t => (uniformDetailed F' (bs.map (scaleBore c)) ns rs t (c ^ 2 * alpha / alpha' * thr)).map .one) ⟨none, none⟩
        (as.map fun a => a.map (c ^ 2 * alpha / alpha' * ·))) none =
      drawG (bs.map fun b => b.H) alpha (evaluations (fun t => (uniformDetailed F bs ns rs t thr).map .one) ⟨none, none⟩ as) none) ∧
    drawG ((bs.map (scaleBore c)).map fun b => b.H) alpha' (evaluations (fun t => (temperatureDetailed F' (bs.map (scaleBore c)) ns rs t (c ^ 2 * alpha / alpha' * thr)).map fun o => .one o.1)
        ⟨none, none⟩ (as.map fun a => a.map (c ^ 2 * alpha / alpha' * ·))) none =
      drawG (bs.map fun b => b.H) alpha (evaluations (fun t => (temperatureDetailed F bs ns rs t thr).map fun o => .one o.1) ⟨none, none⟩ as) none := by
  have hl : 0 < c ^ 2 * alpha / alpha' := by positivity
  have e : (bs.map (scaleBore c)).map (fun b => b.H) = (bs.map fun b => b.H).map (c * ·) := by
    rw [List.map_map, List.map_map]
    rfl
  rw [e]
  refine ⟨drawn_scale hc ha ha' _ (fun t => ?_) as none, drawn_scale hc ha ha' _ (fun t => ?_) as none⟩
  · rw [uniform_scale hl hc hK]
  · rw [temperature_scale hl hc hK, Option.map_map]
    rfl

/-! ### Figures of the heat extraction rates and temperatures -/

/-- **C163** (other figures).  A time has the same abscissa in the figure of the g-function and in those of the heat extraction rates and the temperatures, when the solver keeps the boreholes
(`detailed` and `similarities`) or all boreholes have the same length. -/
theorem axis_same_partial {Hs Hs' : List ℝ} (h : Hs' = Hs ∨ ∃ H, Hs ≠ [] ∧ Hs' ≠ [] ∧ (∀ x ∈ Hs, x = H) ∧ ∀ x ∈ Hs', x = H) (alpha t : ℝ) :
    lnTime (charTime Hs' alpha) t = lnTime (charTime Hs alpha) t := by
  rcases h with rfl | ⟨H, h1, h2, h3, h4⟩
  · rfl
  · have key : ∀ l : List ℝ, l ≠ [] → (∀ x ∈ l, x = H) → l.sum / l.length = H := by
      intro l hl hx
      have hn : (l.length : ℝ) ≠ 0 := by exact_mod_cast (List.length_pos_iff.mpr hl).ne'
      rw [List.eq_replicate_iff.mpr ⟨rfl, hx⟩, List.sum_replicate, List.length_replicate, nsmul_eq_mul]
      field_simp
    unfold charTime
    rw [key Hs h1 h3, key Hs' h2 h4]

/-- Boreholes of 100 m, 100 m and 50 m, the short one between the others. -/
def shortMiddle (cut : List ℝ → ℕ × List ℕ) : EqIn :=
  ⟨3, fun k => ⟨if k = 2 then 50 else 100, 4, 0.075, if k = 2 then 5 else 10 * k, 0, 0, 0⟩, 1 / 10 ^ 6, 1 / 100, cut⟩

open EqIn in
theorem shortMiddle_unique (cut : List ℝ → ℕ × List ℕ) : (shortMiddle cut).uniqueBoreholes = [[0, 1], [2]] := by
  have h10 : cmpDims (shortMiddle cut).tol ((shortMiddle cut).bore 1) ((shortMiddle cut).bore 0) := by
    refine ⟨?_, ?_, ?_⟩ <;> norm_num [shortMiddle]
  have h20 : ¬ cmpDims (shortMiddle cut).tol ((shortMiddle cut).bore 2) ((shortMiddle cut).bore 0) := by
    rintro ⟨h, -⟩
    norm_num [shortMiddle] at h
  have e : List.range (shortMiddle cut).N = [0, 1, 2] := rfl
  unfold uniqueBoreholes
  rw [e]
  simp only [List.foldl_cons, List.foldl_nil, addSelf, List.headD_cons, h10, h20, if_true, if_false, List.singleton_append]

theorem shortMiddle_temp (cut : List ℝ → ℕ × List ℕ) : (shortMiddle cut).temp 0 = (shortMiddle cut).temp 1 := by
  have hp : ∀ j i, FLS.pairOf ((shortMiddle cut).bore j) ((shortMiddle cut).bore i) =
      ⟨max 0.075 |(if j = 2 then 5 else 10 * (j : ℝ)) - (if i = 2 then 5 else 10 * (i : ℝ))|, if j = 2 then 50 else 100, 4, if i = 2 then 50 else 100, 4⟩ := by
    intro j i
    simp only [FLS.pairOf, Borehole.distance, shortMiddle]
    rw [sub_self, zero_pow two_ne_zero, add_zero, Real.sqrt_sq_eq_abs]
  have e : List.range (shortMiddle cut).N = [0, 1, 2] := rfl
  unfold EqIn.temp
  rw [e]
  simp only [List.map_cons, List.map_nil, List.sum_cons, List.sum_nil, hp]
  norm_num
  ring

open EqIn in
theorem shortMiddle_equivalents {cut : List ℝ → ℕ × List ℕ} (hc : CutOk cut) :
    (shortMiddle cut).equivalents = some [⟨100, 4, 0.075, [(0, 0), (10, 0)]⟩, ⟨50, 4, 0.075, [(5, 0)]⟩] := by
  have hd : 1 < ([(shortMiddle cut).temp 0, (shortMiddle cut).temp 1] : List ℝ).length := by simp
  have hone : (cut [(shortMiddle cut).temp 0, (shortMiddle cut).temp 1]).1 = 1 := hc.equal _ hd (by
    intro x hx y hy
    simp only [shortMiddle_temp, List.mem_cons, List.not_mem_nil, or_false, or_self] at hx hy
    rw [hx, hy])
  have hlab : (cut [(shortMiddle cut).temp 0, (shortMiddle cut).temp 1]).2 = [0, 0] := by
    have h1 := hc.len _ hd
    have h2 := hc.lt _ hd
    rw [hone] at h2
    obtain ⟨l, hl⟩ : ∃ l, l = (cut [(shortMiddle cut).temp 0, (shortMiddle cut).temp 1]).2 := ⟨_, rfl⟩
    rw [← hl] at h1 h2 ⊢
    match l, h1 with
    | [a, b], _ =>
      have ha := h2 a (by simp)
      have hb := h2 b (by simp)
      have : a = 0 := by omega
      have : b = 0 := by omega
      subst_vars
      rfl
  have hcl : (shortMiddle cut).clusters = ([0, 0, 1], 2) := by
    unfold clusters
    rw [if_pos (by norm_num [shortMiddle]), shortMiddle_unique]
    have e : (shortMiddle cut).cut = cut := rfl
    simp only [List.foldl_cons, List.foldl_nil, clusterStep, List.map_cons, List.map_nil, e, hone, hlab]
    simp
  have e3 : List.range (shortMiddle cut).N = [0, 1, 2] := rfl
  unfold equivalents
  have hm0 : (shortMiddle cut).members 0 = [(shortMiddle cut).bore 0, (shortMiddle cut).bore 1] := by
    simp [members, hcl, e3]
  have hm1 : (shortMiddle cut).members 1 = [(shortMiddle cut).bore 2] := by
    simp [members, hcl, e3]
  have e2 : List.range (shortMiddle cut).clusters.2 = [0, 1] := by rw [hcl]; rfl
  rw [e2, e3]
  simp only [List.map_cons, List.map_nil, eqOf, List.mapM_cons, List.mapM_nil, hm0, hm1]
  norm_num [shortMiddle]

/-- **C163** (violated for the other figures).  Boreholes of 100 m, 100 m and 50 m, `equivalent` solver, whatever the clustering: a time has different abscissas in the figure of the g-function
and in those of the heat extraction rates and the temperatures; the difference is `2 * ln (10 / 9)`. -/
theorem axis_fails {cut : List ℝ → ℕ × List ℕ} (hc : CutOk cut) {alpha t : ℝ} (ha : 0 < alpha) (ht : 0 < t) :
    ∃ es, (shortMiddle cut).equivalents = some es ∧ ∃ x x' : ℝ, lnTime (charTime ((List.range 3).map fun k => ((shortMiddle cut).bore k).H) alpha) t = x ∧
      lnTime (charTime (es.map fun e => e.H) alpha) t = x' ∧ x' = x + 2 * Real.log (10 / 9) := by
  refine ⟨_, shortMiddle_equivalents hc, ?_⟩
  have e1 : charTime ((List.range 3).map fun k => ((shortMiddle cut).bore k).H) alpha = (250 / 3) ^ 2 / (9 * alpha) := by
    have e3 : List.range 3 = [0, 1, 2] := rfl
    rw [e3]
    norm_num [charTime, shortMiddle]
  have e2 : charTime (([⟨100, 4, 0.075, [(0, 0), (10, 0)]⟩, ⟨50, 4, 0.075, [(5, 0)]⟩] : List EqBore).map fun e => e.H) alpha = 75 ^ 2 / (9 * alpha) := by
    norm_num [charTime]
  rw [e1, e2]
  have h1 : 0 < t / ((250 / 3) ^ 2 / (9 * alpha)) := by positivity
  have h2 : 0 < t / (75 ^ 2 / (9 * alpha)) := by positivity
  refine ⟨Real.log (t / ((250 / 3) ^ 2 / (9 * alpha))), Real.log (t / (75 ^ 2 / (9 * alpha))), by simp only [lnTime, if_neg h1.ne'], by simp only [lnTime, if_neg h2.ne'], ?_⟩
  have h3 : (2 : ℝ) * Real.log (10 / 9) = Real.log ((10 / 9) ^ 2) := by rw [Real.log_pow]; norm_num
  rw [h3, ← Real.log_mul h1.ne' (by norm_num)]
  congr 1
  field_simp
  norm_num

/-! ### Examples -/

theorem temperature_full {K : ℝ → Bool → Borehole → Borehole → ℝ} {bs : List Borehole} {ns : List ℕ} {rs : List (List ℝ)} {thr : ℝ} {t : List ℝ} {v : Values}
    (h : (temperatureDetailed K bs ns rs t thr).map (fun o => Values.one o.1) = some v) : FullValues t v := by
  unfold temperatureDetailed at h
  split_ifs at h
  · rw [Option.map_eq_some_iff] at h
    obtain ⟨o, ho, rfl⟩ := h
    exact (ubwt_mean_one (g := o.1) (Qs := o.2) ho).1
  · simp at h

/-- Solver of the examples. -/
def rowSolve (t : List ℝ) : Option Values := (temperatureDetailed lineKernel fieldRow [2, 2, 2, 2] quarters t 3600).map fun o => .one o.1

theorem rowSolve_returns {t : List ℝ} (h0 : ∀ x ∈ t, 0 < x) (hs : t.Pairwise (· < ·)) : ∃ g, rowSolve t = some (.one g) := by
  obtain ⟨o, ho⟩ := temperature_returns (alpha := 1 / 10 ^ 6) (K := lineKernel) (by norm_num) (fun _ _ _ => rfl) fieldRow_upright quarters_splits fieldRow_spaced h0 hs (thr := 3600) (by norm_num)
  exact ⟨o.1, by unfold rowSolve; rw [ho]; rfl⟩

/-- Two evaluations, one with times in the wrong order: the figure shows the first. -/
example : ∃ v cs, rowSolve [7200, 86400] = some v ∧ drawG (fieldRow.map fun b => b.H) (1 / 10 ^ 6) (evaluations rowSolve ⟨none, none⟩ [[7200, 86400], [86400, 7200]]) none = some cs ∧
    Displays (fieldRow.map fun b => b.H) (1 / 10 ^ 6) [7200, 86400] allPairs v cs := by
  obtain ⟨g, hg⟩ := rowSolve_returns (t := [7200, 86400]) (by norm_num) (by norm_num)
  have h1 : times [7200, 86400] = some [7200, 86400] := by norm_num [times]
  have h2 : times [86400, 7200] = none := by norm_num [times]
  obtain ⟨cs, h⟩ := drawn_partial (Hs := fieldRow.map fun b => b.H) (alpha := 1 / 10 ^ 6) (by simp [fieldRow]) (by simp [fieldRow]) (by norm_num) (as := [[7200, 86400], [86400, 7200]])
    (by simp [lastTimes, h1, h2]) hg (temperature_full hg) (which := none) (by simp)
  exact ⟨_, cs, hg, h⟩

/-- Two flow rates, and the curves of the last one. -/
example : ∃ cs, drawG [100, 150] (1 / 10 ^ 6) (evaluations (fun t => some (.many 2 fun i j => t.map fun x => x * (i + 2 * j))) ⟨none, none⟩ [[1, 2]]) (some [(-1, 1), (0, -1)]) = some cs ∧
    Displays [100, 150] (1 / 10 ^ 6) [1, 2] (fun _ => [(-1, 1), (0, -1)]) (.many 2 fun i j => [1, 2].map fun x => x * (i + 2 * j)) cs := by
  have h1 : times [1, 2] = some [1, 2] := by norm_num [times]
  have hf : FullValues [1, 2] (.many 2 fun i j => [1, 2].map fun x => x * (i + 2 * j)) := fun i _ j _ => by simp
  refine drawn_partial (by simp) (by norm_num) (by norm_num) (by simp [lastTimes, h1]) rfl hf fun l hl k g hk p hp => ?_
  obtain rfl : k = 2 := by injection hk with hk _; exact hk.symm
  obtain rfl := Option.some.inj hl
  simp only [List.mem_cons, List.not_mem_nil, or_false] at hp
  rcases hp with rfl | rfl
  · exact ⟨⟨1, by norm_num, by norm_num⟩, 1, by norm_num, by norm_num⟩
  · exact ⟨⟨0, by norm_num, by norm_num⟩, 1, by norm_num, by norm_num⟩

/-- **C163** (violated: witness).  Four boreholes with a uniform temperature: the evaluation at 2 h, 3 h and 1 day, then one that raises (1 day twice), and the figure: the value at 3 h is drawn
at 1 day. -/
theorem drawn_stale_witness : ∃ v1 v2 v3 : ℝ, rowSolve [7200, 10800, 86400] = some (.one [v1, v2, v3]) ∧ rowSolve [7200, 86400, 86400] = none ∧
    ∃ x : ℝ → WithBot ℝ, drawG (fieldRow.map fun b => b.H) (1 / 10 ^ 6) (evaluations rowSolve ⟨none, none⟩ [[7200, 10800, 86400], [7200, 86400, 86400]]) none =
      some [(none, [(x 7200, v1), (x 86400, v2), (x 86400, v3)])] ∧ ∀ t y, IsPoint (fieldRow.map fun b => b.H) (1 / 10 ^ 6) t y (x t, y) := by
  obtain ⟨g, hg⟩ := rowSolve_returns (t := [7200, 10800, 86400]) (by norm_num) (by norm_num)
  have hl : g.length = 3 := temperature_full hg
  have h1 : times [7200, 10800, 86400] = some [7200, 10800, 86400] := by norm_num [times]
  have h2 : times [7200, 86400, 86400] = some [7200, 86400, 86400] := by norm_num [times]
  have hr := repeated_time_raises (K := lineKernel) (bs := fieldRow) (ns := [2, 2, 2, 2]) (rs := quarters) (time := [7200, 86400, 86400]) (thr := 3600) (by norm_num) (by norm_num) (by norm_num)
    (p := 1) (t := 86400) rfl rfl (by norm_num)
  have hN : 2 ≤ (segmentList fieldRow [2, 2, 2, 2] quarters).length := by
    rw [← segments_total quarters_splits.consistent]
    change 2 ≤ ∑ i : Fin 4, (quarters.getD i []).length
    simp [quarters, Fin.sum_univ_succ]
  have hn : rowSolve [7200, 86400, 86400] = none := by
    unfold rowSolve
    rw [hr.2.1 hN]
    rfl
  match g, hl with
  | [v1, v2, v3], _ =>
    refine ⟨v1, v2, v3, hg, hn, lnTime (charTime (fieldRow.map fun b => b.H) (1 / 10 ^ 6)), ?_, fun t y => lnTime_point (by simp [fieldRow]) (by simp [fieldRow]) (by norm_num) t y⟩
    have := drawn_stale (fieldRow.map fun b => b.H) (1 / 10 ^ 6) (as := [[7200, 10800, 86400]]) (by simp [lastTimes, h1]) hg h2 hn none
    simpa using this

example : ∃ es, (shortMiddle EqIn.oneCluster).equivalents = some es := ⟨_, shortMiddle_equivalents EqIn.oneCluster_ok⟩

/-- A field twice as large, in ground with twice the diffusivity, at times twice as long. -/
example : drawG ((fieldRow.map (scaleBore 2)).map fun b => b.H) (2 / 10 ^ 6)
      (evaluations (fun t => (uniformDetailed (lineSource [] (2 / 10 ^ 6)) (fieldRow.map (scaleBore 2)) [2, 2, 2, 2] quarters t (2 ^ 2 * (1 / 10 ^ 6) / (2 / 10 ^ 6) * 3600)).map .one) ⟨none, none⟩
        [[7200, 86400].map (2 ^ 2 * (1 / 10 ^ 6) / (2 / 10 ^ 6) * ·)]) none =
    drawG (fieldRow.map fun b => b.H) (1 / 10 ^ 6) (evaluations (fun t => (uniformDetailed (lineSource [] (1 / 10 ^ 6)) fieldRow [2, 2, 2, 2] quarters t 3600).map .one) ⟨none, none⟩ [[7200, 86400]]) none :=
  (figure_scale (c := 2) (by norm_num) (by norm_num) (by norm_num) (lineSource_homogeneous (by norm_num) (by norm_num) []) fieldRow [2, 2, 2, 2] quarters 3600 [[7200, 86400]]).1

end Verif.Gf
