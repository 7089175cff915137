import Verif.Pipe.FlowFormModel

/-!
# Property C159: forms of the flow rate given to a pipe
-/

noncomputable section

namespace Verif.Pipe.FlowForm

/-! ### Specification -/

/-- Specification: the forms of the documentation, `float or (nInlets,) array`. -/
def Documented (n : ℕ) : Flow → Prop
  | .num _ => n = 1
  | .arr l => l.length = n

/-- Specification: the forms with as many values as inlets, without a number for independent U-tubes. -/
def Proper : Kind → Flow → Prop
  | .common, a => Documented 1 a
  | .independent _, .num _ => False
  | .independent n, .arr l => l.length = n

/-- Specification: the values that a form stands for. -/
def values : Flow → List ℝ
  | .num x => [x]
  | .arr l => l

/-- Specification: every flow rate within a millionth of the flow rate of the same inlet. -/
def Near (l l' : List ℝ) : Prop := List.Forall₂ (fun x y => |x - y| < |y| * (1 / 10 ^ 6)) l l'

/-- Specification: flow rates that a result may be for: the argument, one within the tolerance, or one within the tolerance of that. -/
def Around (l l' : List ℝ) : Prop := ∃ l₁, (l₁ = l ∨ Near l l₁) ∧ (l' = l₁ ∨ Near l₁ l')

variable {X : Type} (F : List ℝ → List Bool → X) (k : Kind) (reversible : Bool)

/-- Specification: the coefficients of a pipe with the flow rates `l`; the flow is reversed if it is negative and the pipe allows it. -/
def coef (l : List ℝ) : X := open Classical in F l (l.map fun x => decide (reversible = true ∧ x < 0))

/-! ### Lemmas -/

variable {F k reversible}

theorem back_eq (x : ℝ) : (open Classical in decide (reversible = true ∧ x < 0)) = back reversible x := by
  unfold back
  cases reversible <;> simp

theorem coef_eq (l : List ℝ) : coef F reversible l = F l (l.map (back reversible)) := by
  unfold coef
  congr 2
  funext x
  exact back_eq x

theorem proper_length {a : Flow} (h : Proper k a) : (values a).length = k.inlets := by
  cases k <;> cases a <;> simp_all [Proper, Documented, values, Kind.inlets]

theorem format_proper {a : Flow} (h : Proper k a) : ∃ f, format k reversible a = .ok f ∧ f.vals = values a ∧ directions k f.rev = .ok ((values a).map (back reversible)) := by
  cases k with
  | common =>
    cases a with
    | num x => exact ⟨_, rfl, rfl, rfl⟩
    | arr l =>
      obtain ⟨x, rfl⟩ := List.length_eq_one_iff.mp (show l.length = 1 from h)
      exact ⟨_, rfl, rfl, rfl⟩
  | independent n =>
    cases a with
    | num x => exact h.elim
    | arr l =>
      have hl : l.length = n := h
      exact ⟨⟨l, .many (l.map (back reversible))⟩, by simp [format, formatIndependent, hl], rfl, rfl⟩

theorem pairs_proper {a b : Flow} (ha : Proper k a) (hb : Proper k b) : pairs a b = .ok ((values a).zip (values b)) := by
  have h1 := proper_length ha
  have h2 := proper_length hb
  cases a with
  | num x =>
    cases b with
    | num y => rfl
    | arr l' =>
      obtain ⟨y, rfl⟩ := List.length_eq_one_iff.mp (show l'.length = 1 by rw [show l'.length = k.inlets from h2, ← h1]; rfl)
      rfl
  | arr l =>
    cases b with
    | num y =>
      obtain ⟨x, rfl⟩ := List.length_eq_one_iff.mp (show l.length = 1 by rw [show l.length = k.inlets from h1, ← h2]; rfl)
      rfl
    | arr l' =>
      have : l.length = l'.length := by rw [show l.length = k.inlets from h1]; exact h2.symm
      simp [pairs, values, this]

theorem near_zip : ∀ {l l' : List ℝ}, l.length = l'.length → ((l.zip l').all near = true ↔ Near l l')
  | [], [], _ => by simp [Near]
  | [], _ :: _, h => by simp at h
  | _ :: _, [], h => by simp at h
  | x :: l, y :: l', h => by
    have ih := near_zip (l := l) (l' := l') (by simpa using h)
    rw [List.zip_cons_cons, List.all_cons, Bool.and_eq_true, ih]
    unfold Near
    rw [List.forall₂_cons]
    simp [near]

theorem close_proper {a b : Flow} (ha : Proper k a) (hb : Proper k b) : ∃ h : Bool, close a b = .ok h ∧ (h = true ↔ Near (values a) (values b)) := by
  refine ⟨_, by unfold close; rw [pairs_proper ha hb]; rfl, ?_⟩
  exact near_zip (by rw [proper_length ha, proper_length hb])

/-- What is stored was computed for a proper form. -/
structure Sound (F : List ℝ → List Bool → X) (k : Kind) (reversible : Bool) (s : St X) : Prop where
  mv : ∀ b f, s.mv = some (b, f) → Proper k b ∧ f.vals = values b ∧ directions k f.rev = .ok ((values b).map (back reversible))
  out : ∀ b v, s.out = some (b, v) → Proper k b ∧ ∃ l, (l = values b ∨ Near (values b) l) ∧ v = coef F reversible l

theorem checkMv_proper {s : St X} (hs : Sound F k reversible s) {a : Flow} (ha : Proper k a) :
    ∃ f s' l, checkMv k reversible a s = .ok (f, s') ∧ s'.out = s.out ∧ (l = values a ∨ Near (values a) l) ∧ f.vals = l ∧ directions k f.rev = .ok (l.map (back reversible)) ∧ Sound F k reversible s' := by
  obtain ⟨f, hf, hv, hd⟩ := format_proper (reversible := reversible) ha
  have hnew : Sound F k reversible { s with mv := some (a, f) } := by
    refine ⟨fun b f' h => ?_, hs.out⟩
    simp only [Option.some.injEq, Prod.mk.injEq] at h
    obtain ⟨rfl, rfl⟩ := h
    exact ⟨ha, hv, hd⟩
  unfold checkMv
  cases hm : s.mv with
  | none =>
    have hc : closeNew k a = .ok false := by
      cases a with
      | num x => rfl
      | arr l =>
        have := proper_length ha
        simp only [values] at this
        simp [closeNew, this]
    simp only [hc, Except.map, hf]
    exact ⟨f, _, values a, rfl, rfl, Or.inl rfl, hv, hd, hnew⟩
  | some p =>
    obtain ⟨b, g⟩ := p
    obtain ⟨hb, hgv, hgd⟩ := hs.mv b g hm
    obtain ⟨h, hc, hiff⟩ := close_proper ha hb
    cases h with
    | true =>
      simp only [hc, Except.map, if_true]
      exact ⟨g, s, values b, rfl, rfl, Or.inr (hiff.mp rfl), hgv, hgd, hs⟩
    | false =>
      simp only [hc, Except.map, Bool.false_eq_true, if_false, hf]
      exact ⟨f, _, values a, rfl, rfl, Or.inl rfl, hv, hd, hnew⟩

theorem outlet_proper {s : St X} (hs : Sound F k reversible s) {a : Flow} (ha : Proper k a) :
    (∃ l, Around (values a) l ∧ (outlet F k reversible a s).1 = .ok (coef F reversible l)) ∧ Sound F k reversible (outlet F k reversible a s).2 := by
  have hmiss : ∃ l, (l = values a ∨ Near (values a) l) ∧ (match checkMv k reversible a s with
      | .error e => (.error e, s)
      | .ok (f, s') => match directions k f.rev with
        | .error e => (.error e, s')
        | .ok d => (.ok (F f.vals d), { s' with out := some (a, F f.vals d) }) : Except Err X × St X).1 = .ok (coef F reversible l) ∧
      Sound F k reversible (match checkMv k reversible a s with
      | .error e => (.error e, s)
      | .ok (f, s') => match directions k f.rev with
        | .error e => (.error e, s')
        | .ok d => (.ok (F f.vals d), { s' with out := some (a, F f.vals d) }) : Except Err X × St X).2 := by
    obtain ⟨f, s', l, hc, ho, hl, hv, hd, hs'⟩ := checkMv_proper hs ha
    refine ⟨l, hl, ?_, ?_⟩
    · simp only [hc, hd, hv]; rw [coef_eq]
    · simp only [hc, hd, hv]
      refine ⟨hs'.mv, fun b v h => ?_⟩
      simp only [Option.some.injEq, Prod.mk.injEq] at h
      obtain ⟨rfl, rfl⟩ := h
      exact ⟨ha, l, hl, (coef_eq l).symm⟩
  unfold outlet lookup
  cases hm : s.out with
  | none =>
    obtain ⟨l, hl, h1, h2⟩ := hmiss
    exact ⟨⟨l, ⟨values a, Or.inl rfl, hl⟩, h1⟩, h2⟩
  | some p =>
    obtain ⟨b, v⟩ := p
    obtain ⟨hb, l, hl, hv⟩ := hs.out b v hm
    obtain ⟨h, hc, hiff⟩ := close_proper ha hb
    cases h with
    | true =>
      simp only [hc, Except.map, if_true]
      exact ⟨⟨l, ⟨values b, Or.inr (hiff.mp rfl), hl⟩, by rw [hv]⟩, hs⟩
    | false =>
      simp only [hc, Except.map, Bool.false_eq_true, if_false]
      obtain ⟨l, hl, h1, h2⟩ := hmiss
      exact ⟨⟨l, ⟨values a, Or.inl rfl, hl⟩, h1⟩, h2⟩

theorem sound_new : Sound F k reversible ({} : St X) := ⟨fun _ _ h => by simp at h, fun _ _ h => by simp at h⟩

theorem run_proper {as : List Flow} (h : ∀ a ∈ as, Proper k a) {s : St X} (hs : Sound F k reversible s) : Sound F k reversible (run F k reversible as s) := by
  induction as generalizing s with
  | nil => exact hs
  | cons a as ih =>
    exact ih (fun b hb => h b (by simp [hb])) (outlet_proper hs (h a (by simp))).2

/-! ### Theorems -/

/-- **C159** (new pipes).  A new pipe returns the coefficients of the flow rates for one value per inlet; for one inlet a number and an array of one value are the same. -/
theorem form_new {a : Flow} (ha : Proper k a) : (outlet F k reversible a {}).1 = .ok (coef F reversible (values a)) := by
  obtain ⟨f, hf, hv, hd⟩ := format_proper (reversible := reversible) ha
  have hc : closeNew k a = .ok false := by
    cases a with
    | num x => rfl
    | arr l =>
      have := proper_length ha
      simp only [values] at this
      simp [closeNew, this]
  simp only [outlet, lookup, checkMv, hc, Except.map, hf, hd, hv, coef_eq]

/-- **C159** (new pipes, other lengths).  A new pipe refuses every other number of values. -/
theorem form_new_refused {a : Flow} (ha : (values a).length ≠ k.inlets) (h0 : values a ≠ []) : ∃ e, (outlet F k reversible a {}).1 = .error e := by
  have hf : ∃ e, format k reversible a = .error e := by
    cases k with
    | common =>
      cases a with
      | num x => exact (ha rfl).elim
      | arr l =>
        match l, ha, h0 with
        | [], _, h0 => exact (h0 rfl).elim
        | [x], ha, _ => exact (ha rfl).elim
        | _ :: _ :: _, _, _ => exact ⟨_, rfl⟩
    | independent n =>
      cases a with
      | num x => exact ⟨.length, if_neg fun h => ha (by rw [h]; rfl)⟩
      | arr l => exact ⟨.length, if_neg ha⟩
  obtain ⟨e, hf⟩ := hf
  simp only [outlet, lookup, checkMv]
  cases closeNew k a with
  | error e => exact ⟨e, rfl⟩
  | ok b => simp only [Except.map, hf]; exact ⟨e, rfl⟩

/-- **C159** (the part that holds).  After any evaluations with one value per inlet (a number or an array for one inlet, an array for independent U-tubes), an evaluation with one value per inlet
returns the coefficients of these flow rates, up to the tolerance of the stored coefficients. -/
theorem form_history_partial {as : List Flow} (has : ∀ b ∈ as, Proper k b) {a : Flow} (ha : Proper k a) :
    ∃ l, Around (values a) l ∧ (outlet F k reversible a (run F k reversible as {})).1 = .ok (coef F reversible l) :=
  (outlet_proper (run_proper has sound_new) ha).1

/-- **C159** (refutation: numbers).  Independent U-tubes with one U-tube refuse a number, and after that also the array of this number, which a new pipe accepts. -/
theorem form_number_fails {x : ℝ} (hx : x ≠ 0) : Documented 1 (.num x) ∧ (outlet F (.independent 1) reversible (.num x) {}).1 = .error .type ∧
    (outlet F (.independent 1) reversible (.arr [x]) {}).1 = .ok (coef F reversible [x]) ∧
    (outlet F (.independent 1) reversible (.arr [x]) (run F (.independent 1) reversible [.num x] {})).1 = .error .type := by
  have hn : near (x, x) = true := by
    simp only [near, sub_self, abs_zero, decide_eq_true_eq]
    exact mul_pos (abs_pos.mpr hx) (by norm_num)
  refine ⟨rfl, rfl, form_new (k := .independent 1) rfl, ?_⟩
  have hs : run F (.independent 1) reversible [.num x] {} = ⟨some (.num x, ⟨[x], .one (back reversible x)⟩), none⟩ := rfl
  rw [hs]
  simp [outlet, lookup, checkMv, close, pairs, Except.map, hn, directions]

/-- **C159** (refutation: wrong lengths).  After an evaluation with the same flow rate in all of two or more independent U-tubes, this flow rate as a number or as an array of one value is accepted;
after an evaluation with a number, an array with any number of copies is accepted by a pipe with one inlet.  New pipes refuse them (`form_new_refused`). -/
theorem form_stale_fails {x : ℝ} (hx : x ≠ 0) {n : ℕ} (hn : 2 ≤ n) :
    (outlet F (.independent n) reversible (.num x) (run F (.independent n) reversible [.arr (List.replicate n x)] {})).1 = .ok (coef F reversible (List.replicate n x)) ∧
    (outlet F (.independent n) reversible (.arr [x]) (run F (.independent n) reversible [.arr (List.replicate n x)] {})).1 = .ok (coef F reversible (List.replicate n x)) ∧
    (outlet F .common reversible (.arr (List.replicate n x)) (run F .common reversible [.num x] {})).1 = .ok (coef F reversible [x]) := by
  have hx' : near (x, x) = true := by
    simp only [near, sub_self, abs_zero, decide_eq_true_eq]
    exact mul_pos (abs_pos.mpr hx) (by norm_num)
  obtain ⟨m, rfl⟩ : ∃ m, n = m + 2 := ⟨n - 2, by omega⟩
  have hs : (run F (.independent (m + 2)) reversible [.arr (List.replicate (m + 2) x)] {}).out = some (.arr (List.replicate (m + 2) x), coef F reversible (List.replicate (m + 2) x)) := by
    simp [run, outlet, lookup, checkMv, closeNew, Kind.inlets, Except.map, format, formatIndependent, directions, coef_eq]
  have ht : (run F .common reversible [.num x] {}).out = some (.num x, coef F reversible [x]) := by rw [coef_eq]; rfl
  have hall : ∀ p ∈ (List.replicate (m + 2) x).map fun y => (x, y), near p = true := by
    intro p hp
    obtain ⟨y, hy, rfl⟩ := List.mem_map.mp hp
    rw [List.eq_of_mem_replicate hy]; exact hx'
  refine ⟨?_, ?_, ?_⟩
  · have hc : close (.num x) (.arr (List.replicate (m + 2) x)) = .ok true := by
      simp only [close, pairs, Except.map]
      rw [List.all_eq_true.mpr hall]
    simp only [outlet, lookup, hs, hc, Except.map, if_true]
  · have hc : close (.arr [x]) (.arr (List.replicate (m + 2) x)) = .ok true := by
      have : pairs (.arr [x]) (.arr (List.replicate (m + 2) x)) = .ok ((List.replicate (m + 2) x).map fun y => (x, y)) := by
        simp [pairs]
      simp only [close, this, Except.map]
      rw [List.all_eq_true.mpr hall]
    simp only [outlet, lookup, hs, hc, Except.map, if_true]
  · have hc : close (.arr (List.replicate (m + 2) x)) (.num x) = .ok true := by
      simp only [close, pairs, Except.map]
      rw [List.all_eq_true.mpr]
      intro p hp
      obtain ⟨y, hy, rfl⟩ := List.mem_map.mp hp
      rw [List.eq_of_mem_replicate hy]; exact hx'
    simp only [outlet, lookup, ht, hc, Except.map, if_true]

/-! ### Concrete cases -/

/-- Three independent U-tubes after two other evaluations. -/
example : ∃ l, Around [1, -2, 3] l ∧ (outlet F (.independent 3) true (.arr [1, -2, 3]) (run F (.independent 3) true [.arr [1, 1, 1], .arr [1, 2, 3]] {})).1 = .ok (coef F true l) :=
  form_history_partial (k := .independent 3) (a := .arr [1, -2, 3]) (by simp [Proper]) rfl

/-- Two values for a pipe with one inlet, and two values for three independent U-tubes. -/
example : (∃ e, (outlet F .common true (.arr [1, 2]) {}).1 = .error e) ∧ ∃ e, (outlet F (.independent 3) true (.arr [1, 2]) {}).1 = .error e :=
  ⟨form_new_refused (by simp [values, Kind.inlets]) (by simp [values]), form_new_refused (by simp [values, Kind.inlets]) (by simp [values])⟩

/-- A number and an array of one value for one inlet, with reversed flow. -/
example : (outlet F .common true (.num (-2)) {}).1 = (outlet F .common true (.arr [-2]) {}).1 :=
  (form_new (k := .common) (a := .num (-2)) rfl).trans (form_new (k := .common) (a := .arr [-2]) rfl).symm

end Verif.Pipe.FlowForm
