import Verif.Net.InputModel
import Verif.Net.FlowProps

/-!
# Which arguments a network accepts (C111)
-/

noncomputable section

namespace Verif.Net

variable {n : ℕ} {conn : Option (List ℤ)} {t : Topology}

/-- One value for all, or one value for each of `k`. -/
def OneOrEach {α : Type*} (k : ℕ) (l : List α) : Prop := l.length = 1 ∨ l.length = k

/-- Number of circuits of a network: the boreholes fed by its inlet. -/
def circuitCount (n : ℕ) : Option (List ℤ) → ℕ
  | none => n
  | some c => c.count (-1)

theorem formatFlow_iff (k : ℕ) (m : List ℝ) : (∃ l, formatFlow k m = .ok l) ↔ OneOrEach k m := by
  unfold OneOrEach formatFlow
  match m with
  | [] => by_cases h : 0 = k <;> simp [h]
  | [a] => simp
  | a :: b :: l => by_cases h : (a :: b :: l).length = k <;> simp_all

theorem formatSegments_iff (k : ℕ) (s : List ℕ) : (∃ l, formatSegments k s = .ok l) ↔ OneOrEach k s := by
  unfold OneOrEach formatSegments
  match s with
  | [] => by_cases h : 0 = k <;> simp [h]
  | [a] => simp
  | a :: b :: l => by_cases h : (a :: b :: l).length = k <;> simp_all

theorem formatCp_iff (k : ℕ) (cp : List ℝ) (c : ℝ) :
    formatCp k cp = .ok c ↔ OneOrEach k cp ∧ cp ≠ [] ∧ ∀ b ∈ cp, b = c := by
  unfold OneOrEach formatCp
  match cp with
  | [] => simp
  | [a] => simp
  | a :: b :: l =>
    by_cases h : (a :: b :: l).length = k
    · simp only [h, ne_eq, not_true_eq_false, if_false]
      by_cases hb : ∀ x ∈ a :: b :: l, x = a
      · rw [if_pos hb]
        simp only [Except.ok.injEq]
        constructor
        · rintro rfl
          exact ⟨by simp, by simp, hb⟩
        · rintro ⟨-, -, h2⟩
          exact h2 a (by simp)
      · rw [if_neg hb]
        refine ⟨fun h => (by cases h), ?_⟩
        rintro ⟨-, -, h2⟩
        exact absurd (fun x hx => (h2 x hx).trans (h2 a (by simp)).symm) hb
    · simp only [ne_eq, h, not_false_eq_true, if_true]
      refine ⟨fun h => (by cases h), ?_⟩
      rintro ⟨h1 | h1, -⟩
      · simp at h1
      · simp at h1

theorem format_iff (m cp : List ℝ) (f : Formatted) :
    format t m cp = .ok f ↔ ∃ l, formatFlow t.nInlets m = .ok l ∧ f.mIn = l ∧
      formatCp t.nInlets cp = .ok f.cp ∧ ((f.rev = false ∧ ∀ a ∈ m, 0 ≤ a) ∨
        (f.rev = true ∧ (∀ a ∈ m, a ≤ 0) ∧ ∃ a ∈ m, a < 0)) := by
  unfold format
  cases hm : formatFlow t.nInlets m with
  | error e => simp
  | ok l =>
    simp only [Except.ok.injEq, exists_eq_left']
    by_cases hp : ∀ a ∈ m, 0 ≤ a
    · rw [if_pos hp]
      have hno : ¬ ∃ a ∈ m, a < 0 := by
        rintro ⟨a, ha, hlt⟩
        exact absurd (hp a ha) (not_le.mpr hlt)
      cases hc : formatCp t.nInlets cp with
      | error e => simp
      | ok c =>
        simp only [Except.ok.injEq]
        constructor
        · rintro rfl
          exact ⟨rfl, rfl, Or.inl ⟨rfl, hp⟩⟩
        · rintro ⟨h1, h2, ⟨h3, -⟩ | ⟨-, -, h4⟩⟩
          · cases f; simp_all
          · exact absurd h4 hno
    · rw [if_neg hp]
      by_cases hq : ∀ a ∈ m, a ≤ 0
      · rw [if_pos hq]
        have hyes : ∃ a ∈ m, a < 0 := by
          push Not at hp
          exact hp
        cases hc : formatCp t.nInlets cp with
        | error e => simp
        | ok c =>
          simp only [Except.ok.injEq]
          constructor
          · rintro rfl
            exact ⟨rfl, rfl, Or.inr ⟨rfl, hq, hyes⟩⟩
          · rintro ⟨h1, h2, ⟨-, h3⟩ | ⟨h3, -⟩⟩
            · exact absurd h3 hp
            · cases f; simp_all
      · rw [if_neg hq]
        refine ⟨fun h => (by cases h), ?_⟩
        rintro ⟨-, -, ⟨-, h⟩ | ⟨-, h, -⟩⟩
        · exact absurd h hp
        · exact absurd h hq

theorem circuitCount_eq (h : construct n conn = .ok t) : t.n = n ∧ t.nInlets = circuitCount n conn := by
  obtain ⟨h1, h2, -, -⟩ := construct_ok h
  refine ⟨h1, ?_⟩
  have h3 : t.nInlets = t.c.count (-1) := by
    unfold construct at h
    dsimp only at h
    cases hv : verify n (conn.getD (List.replicate n (-1))) with
    | error e => rw [hv] at h; simp at h
    | ok u =>
      rw [hv] at h
      simp only at h
      unfold findInletsOutlets at h
      cases hr : circuits n (conn.getD (List.replicate n (-1)))
          (List.range n) with
      | error e => rw [hr] at h; simp at h
      | ok circ =>
        rw [hr] at h
        simp only at h
        split_ifs at h
        simp only [Except.ok.injEq] at h
        subst h
        rfl
  rw [h3, h2]
  cases conn <;> simp [circuitCount]

/-- Flow rate of circuit `k` meant by the argument: a single value is the total, shared equally. -/
def FlowMeans (c : ℕ) (m : List ℝ) (k : ℕ) (v : ℝ) : Prop :=
  (∃ a, m = [a] ∧ v = a / c) ∨ (m.length ≠ 1 ∧ m[k]? = some v)

/-- Value of borehole `i` meant by an argument with one value for all or one for each borehole. -/
def ValueMeans {α : Type*} (l : List α) (i : ℕ) (v : α) : Prop :=
  l = [v] ∨ (l.length ≠ 1 ∧ l[i]? = some v)

/-- Segment ratios of borehole `i` meant by the argument. -/
def RatioMeans (r : RatioArg) (i : ℕ) (v : Option (List ℝ)) : Prop :=
  match r with
  | .none => v = none
  | .array a => v = some a
  | .list l => l[i]? = some v
  | .other => False

/-- C111: a constructed network accepts exactly the flow rates (one or one per circuit, of
one sign), heat capacities (one or one per circuit, all equal), numbers of segments (one or one per borehole)
and segment ratios (`None`, array or list) of its documentation, and otherwise raises `ValueError`. -/
theorem inputs_accepted (h : construct n conn = .ok t) (m cp : List ℝ) (nSeg : List ℕ) (r : RatioArg) :
    ((∃ x, formatInputs t m cp nSeg r = .ok x) ↔
      OneOrEach (circuitCount n conn) m ∧ ((∀ a ∈ m, 0 ≤ a) ∨ ∀ a ∈ m, a ≤ 0) ∧
      OneOrEach (circuitCount n conn) cp ∧ (∃ c, cp ≠ [] ∧ ∀ b ∈ cp, b = c) ∧
      OneOrEach n nSeg ∧ r ≠ .other) ∧
    ((¬ ∃ x, formatInputs t m cp nSeg r = .ok x) → formatInputs t m cp nSeg r = .error .value) := by
  obtain ⟨hn, hk⟩ := circuitCount_eq h
  rw [← hk]
  have hr : ∀ r, (∃ q, formatRatios t.n r = .ok q) ↔ r ≠ .other := by
    intro r; cases r <;> simp [formatRatios]
  constructor
  · unfold formatInputs
    constructor
    · rintro ⟨x, hx⟩
      cases hf : format t m cp with
      | error e => rw [hf] at hx; simp at hx
      | ok f =>
        rw [hf] at hx
        simp only at hx
        cases hs : formatSegments t.n nSeg with
        | error e => rw [hs] at hx; simp at hx
        | ok s =>
          rw [hs] at hx
          simp only at hx
          cases hq : formatRatios t.n r with
          | error e => rw [hq] at hx; simp at hx
          | ok q =>
            obtain ⟨l, h1, -, h3, h4⟩ := (format_iff m cp f).mp hf
            obtain ⟨h5, h6, h7⟩ := (formatCp_iff _ _ _).mp h3
            refine ⟨(formatFlow_iff _ _).mp ⟨l, h1⟩, ?_, h5, ⟨_, h6, h7⟩, ?_, (hr r).mp ⟨q, hq⟩⟩
            · rcases h4 with h4 | h4
              · exact Or.inl h4.2
              · exact Or.inr h4.2.1
            · rw [← hn]
              exact (formatSegments_iff _ _).mp ⟨s, hs⟩
    · rintro ⟨h1, h2, h3, ⟨c, h4, h5⟩, h6, h7⟩
      obtain ⟨l, hl⟩ := (formatFlow_iff _ _).mpr h1
      have hc := (formatCp_iff _ _ c).mpr ⟨h3, h4, h5⟩
      obtain ⟨f, hf⟩ : ∃ f, format t m cp = .ok f := by
        by_cases hp : ∀ a ∈ m, 0 ≤ a
        · exact ⟨⟨l, false, c⟩, (format_iff m cp _).mpr ⟨l, hl, rfl, hc, Or.inl ⟨rfl, hp⟩⟩⟩
        · refine ⟨⟨l, true, c⟩, (format_iff m cp _).mpr ⟨l, hl, rfl, hc, Or.inr ⟨rfl, ?_, ?_⟩⟩⟩
          · exact h2.resolve_left hp
          · push Not at hp
            exact hp
      rw [← hn] at h6
      obtain ⟨s, hs⟩ := (formatSegments_iff _ _).mpr h6
      obtain ⟨q, hq⟩ := (hr r).mpr h7
      exact ⟨⟨f, s, q⟩, by rw [hf]; simp only; rw [hs]; simp only; rw [hq]⟩
  · have e1 : ∀ e, formatFlow t.nInlets m = .error e → e = .value := by
      intro e he
      unfold formatFlow at he
      split at he
      · cases he
      · split_ifs at he
        cases he; rfl
    have e2 : ∀ e, formatCp t.nInlets cp = .error e → e = .value := by
      intro e he
      unfold formatCp at he
      split at he
      · cases he; rfl
      · cases he
      · split_ifs at he
        all_goals cases he; rfl
    have e3 : ∀ e, formatSegments t.n nSeg = .error e → e = .value := by
      intro e he
      unfold formatSegments at he
      split at he
      · cases he
      · split_ifs at he
        cases he; rfl
    have e4 : ∀ e, formatRatios t.n r = .error e → e = .value := by
      intro e he
      unfold formatRatios at he
      split at he <;> cases he
      rfl
    have e5 : ∀ e, format t m cp = .error e → e = .value := by
      intro e he
      unfold format at he
      cases hm : formatFlow t.nInlets m with
      | error e' => rw [hm] at he; cases he; exact e1 e hm
      | ok l =>
        rw [hm] at he
        simp only at he
        cases hc : formatCp t.nInlets cp with
        | error e' =>
          rw [hc] at he
          split_ifs at he
          · cases he; exact e2 e hc
          · cases he; exact e2 e hc
          · cases he; rfl
        | ok c =>
          rw [hc] at he
          split_ifs at he
          cases he; rfl
    intro hno
    cases hx : formatInputs t m cp nSeg r with
    | ok x => exact absurd ⟨x, hx⟩ hno
    | error e =>
      have : e = .value := by
        unfold formatInputs at hx
        cases hf : format t m cp with
        | error e' => rw [hf] at hx; cases hx; exact e5 e hf
        | ok f =>
          rw [hf] at hx
          simp only at hx
          cases hs : formatSegments t.n nSeg with
          | error e' => rw [hs] at hx; cases hx; exact e3 e hs
          | ok s =>
            rw [hs] at hx
            simp only at hx
            cases hq : formatRatios t.n r with
            | error e' => rw [hq] at hx; cases hx; exact e4 e hq
            | ok q => rw [hq] at hx; cases hx
      rw [this]

/-- C111: what accepted arguments stand for. -/
theorem inputs_meaning (h : construct n conn = .ok t) (m cp : List ℝ) (nSeg : List ℕ) (r : RatioArg) (x : Inputs)
    (hx : formatInputs t m cp nSeg r = .ok x) :
    (x.flow.mIn.length = circuitCount n conn ∧ ∀ k < circuitCount n conn, ∃ v, x.flow.mIn[k]? = some v ∧
      FlowMeans (circuitCount n conn) m k v) ∧
    (x.flow.rev = true ↔ ∃ a ∈ m, a < 0) ∧ (∀ c ∈ cp, x.flow.cp = c) ∧
    (x.nSeg.length = n ∧ ∀ i < n, ∃ v, x.nSeg[i]? = some v ∧ ValueMeans nSeg i v) ∧
    (∀ i < n, ∀ v, x.ratios[i]? = some v ↔ RatioMeans r i v) := by
  obtain ⟨hn, hk⟩ := circuitCount_eq h
  rw [← hk]
  unfold formatInputs at hx
  cases hf : format t m cp with
  | error e => rw [hf] at hx; cases hx
  | ok f =>
    rw [hf] at hx
    simp only at hx
    cases hs : formatSegments t.n nSeg with
    | error e => rw [hs] at hx; cases hx
    | ok s =>
      rw [hs] at hx
      simp only at hx
      cases hq : formatRatios t.n r with
      | error e => rw [hq] at hx; cases hx
      | ok q =>
        rw [hq] at hx
        cases hx
        dsimp only
        obtain ⟨l, h1, h2, h3, h4⟩ := (format_iff m cp f).mp hf
        obtain ⟨o1, -, -, o4, o5⟩ := format_ok hf
        obtain ⟨h5, h6, h7⟩ := (formatCp_iff _ _ _).mp h3
        refine ⟨⟨o1, ?_⟩, ?_, fun c hc => (h7 c hc).symm, ?_, ?_⟩
        · intro k hkk
          by_cases hm : m.length = 1
          · obtain ⟨a, rfl⟩ := List.length_eq_one_iff.mp hm
            refine ⟨a / t.nInlets, ?_, Or.inl ⟨a, rfl, rfl⟩⟩
            rw [o4 a rfl]
            simp [hkk]
          · have := o5 hm
            have hlt : k < f.mIn.length := by omega
            exact ⟨f.mIn[k], by simp [hlt], Or.inr ⟨hm, by rw [← this]; simp [hlt]⟩⟩
        · rcases h4 with ⟨h4, h8⟩ | ⟨h4, -, h8⟩
          · rw [h4]
            simp only [Bool.false_eq_true, false_iff, not_exists, not_and, not_lt]
            exact h8
          · exact ⟨fun _ => h8, fun _ => h4⟩
        · unfold formatSegments at hs
          split at hs
          · rename_i a
            cases hs
            refine ⟨by simp [hn], fun i hi => ⟨a, by simp [hn, hi], Or.inl rfl⟩⟩
          · rename_i hne
            split_ifs at hs with hlen
            cases hs
            refine ⟨by rw [hlen, hn], fun i hi => ?_⟩
            have hlt : i < nSeg.length := by omega
            refine ⟨nSeg[i], by simp [hlt], Or.inr ⟨?_, by simp [hlt]⟩⟩
            intro h1
            obtain ⟨a, ha⟩ := List.length_eq_one_iff.mp h1
            exact hne a ha
        · intro i hi v
          unfold formatRatios at hq
          cases r with
          | none => cases hq; simp [RatioMeans, hn, hi, eq_comm]
          | array a => cases hq; simp [RatioMeans, hn, hi, eq_comm]
          | list l => cases hq; simp [RatioMeans]
          | other => cases hq

/-- Two boreholes in series and one in parallel (two circuits): one flow rate is shared, a list of three
flow rates is rejected. -/
example : ∃ t x, construct 3 (some [-1, 0, -1]) = .ok t ∧
    formatInputs t [-2] [4000, 4000] [12] (.array [1 / 4, 3 / 4]) = .ok x ∧ x.flow.rev = true ∧
    formatInputs t [1, 1, 1] [4000] [12] .none = .error .value := by
  obtain ⟨t, ht⟩ : ∃ t, construct 3 (some [-1, 0, -1]) = .ok t := ⟨_, rfl⟩
  have hc : circuitCount 3 (some [-1, 0, -1]) = 2 := rfl
  obtain ⟨x, hx⟩ := (inputs_accepted ht [-2] [4000, 4000] [12] (.array [1 / 4, 3 / 4])).1.mpr
    ⟨Or.inl rfl, Or.inr (by simp), Or.inr (by rw [hc]; rfl), ⟨4000, by simp, by simp⟩, Or.inl rfl, by simp⟩
  refine ⟨t, x, ht, hx, (inputs_meaning ht _ _ _ _ x hx).2.1.mpr ⟨-2, by simp, by norm_num⟩, ?_⟩
  apply (inputs_accepted ht _ _ _ _).2
  rw [(inputs_accepted ht _ _ _ _).1, hc]
  rintro ⟨h1, -⟩
  simp [OneOrEach] at h1

end Verif.Net
