import Verif.Gf.DispatchModel
import Verif.Bore.DupProps

/-!
# Construction of `gFunction` (C50, C51, C87, C88)
-/

noncomputable section

namespace Verif.Gf

open Bore Sol Classical

/-! ### Specification -/

/-- Mass flow rates of the boreholes, one row for each set of flow rates. -/
def perBorehole : Val → List (List ℝ)
  | .arr1 v => [v]
  | .arr2 v => v
  | _ => []

/-- Mass flow rates into the network, one row for each value. -/
def perNetwork : Val → List (List ℝ)
  | .flt x => [[x]]
  | .npf x => [[x]]
  | .arr1 v => v.map fun x => [x]
  | .arr2 v => v
  | .none => []

/-- Equal within the default tolerances of `np.allclose`. -/
def Near (a b : List ℝ) : Prop := a.length = b.length ∧ ∀ x ∈ List.zip a b, |x.1 - x.2| ≤ 1 / 10 ^ 8 + 1 / 10 ^ 5 * |x.2|

/-! ### Inversion of the construction -/

theorem switch_some {s s' : State} (h : switch s = some s') :
    s' = s ∨ (s' = { s with method := .is .similarities } ∧ s.bc = .is .MIFT ∧ s.method.fold = some .equivalent) := by
  unfold switch at h
  split_ifs at h with h1
  · cases hn : s.network with
    | none => rw [hn] at h; cases h
    | some net =>
      rw [hn] at h
      dsimp only at h
      split_ifs at h with h2
      · revert h
        cases equalFlows s.mb with
        | none => intro h; cases h
        | some e =>
          cases e with
          | false => intro h; exact Or.inr ⟨(Option.some.inj h).symm, h1⟩
          | true =>
            cases samePipes net.Rd with
            | none => intro h; cases h
            | some p =>
              cases p with
              | false => intro h; exact Or.inr ⟨(Option.some.inj h).symm, h1⟩
              | true => intro h; exact Or.inl (Option.some.inj h).symm
      · exact Or.inr ⟨(Option.some.inj h).symm, h1⟩
  · exact Or.inl (Option.some.inj h).symm

theorem check_some {s : State} {m : Method} {bc : BC} (h : check s = some (m, bc)) :
    s.boreholes ≠ [] ∧ findDuplicates s.boreholes = some [] ∧ s.bc = .is bc ∧ s.method = .is m ∧ (bc = .MIFT → ∃ net, s.network = some net ∧ miftOk s net) := by
  unfold check at h
  split_ifs at h with h1 h2
  refine ⟨h1, not_not.mp h2, ?_⟩
  revert h
  cases hb : s.bc with
  | other => intro h; cases h
  | cased x => intro h; cases h
  | is x =>
    cases hm : s.method with
    | other => cases x <;> intro h <;> cases h
    | cased y => cases x <;> intro h <;> cases h
    | is y =>
      cases x with
      | UHTR => intro h; cases h; exact ⟨rfl, rfl, fun h => by cases h⟩
      | UBWT => intro h; cases h; exact ⟨rfl, rfl, fun h => by cases h⟩
      | MIFT =>
        cases hn : s.network with
        | none => intro h; cases h
        | some net =>
          dsimp only
          split_ifs with h3
          · intro h; cases h; exact ⟨rfl, rfl, fun _ => ⟨net, rfl, h3⟩⟩
          · intro h; cases h

theorem construct_some {a : Args} {s : Solver} (h : construct a = some s) :
    ∃ st fl, switch (assign a) = some st ∧ check st = some (s.kind, s.bc) ∧ setup st.boreholes.length a.nSegments a.ratios = some (s.ns, s.rs) ∧ boreFlows st.mb = some fl ∧
      columnsOk st s.bc fl.1 ∧ (s.kind = .equivalent → equivalentOk st s.bc s.ns s.rs) ∧ s.network = st.network ∧ s.boreholes = st.boreholes ∧
      s.flows = (netFlows fl st.mn).1 ∧ s.nMassFlow = (netFlows fl st.mn).2 ∧ s.cp = st.cp := by
  unfold construct at h
  cases h1 : switch (assign a) with
  | none => rw [h1] at h; cases h
  | some st =>
    rw [h1] at h
    dsimp only at h
    cases h2 : check st with
    | none => rw [h2] at h; cases h
    | some mb =>
      obtain ⟨m, bc⟩ := mb
      rw [h2] at h
      dsimp only at h
      unfold solver at h
      cases h3 : setup st.boreholes.length a.nSegments a.ratios with
      | none => rw [h3] at h; cases h
      | some nr =>
        obtain ⟨ns, rs⟩ := nr
        cases h4 : boreFlows st.mb with
        | none => rw [h3, h4] at h; cases h
        | some fl =>
          rw [h3, h4] at h
          dsimp only at h
          split_ifs at h with h5 h6
          obtain rfl := Option.some.inj h
          refine ⟨st, fl, rfl, h2, h3, h4, h5, fun he => ?_, rfl, rfl, rfl, rfl, rfl⟩
          by_contra h7
          exact h6 ⟨he, h7⟩

/-- Everything but the method is kept by `switch`. -/
theorem switch_fields {s s' : State} (h : switch s = some s') : s'.network = s.network ∧ s'.boreholes = s.boreholes ∧ s'.bc = s.bc ∧ s'.mb = s.mb ∧ s'.mn = s.mn ∧ s'.cp = s.cp := by
  rcases switch_some h with rfl | ⟨rfl, -⟩ <;> exact ⟨rfl, rfl, rfl, rfl, rfl, rfl⟩

theorem assign_network (a : Args) : (∃ net, a.field = .inl net ∧ (assign a).network = some net ∧ (assign a).boreholes = net.b ∧ (assign a).bc = a.bc.getD (.is .MIFT)) ∨
    ∃ bs, a.field = .inr bs ∧ (assign a).network = none ∧ (assign a).boreholes = bs ∧ (assign a).bc = a.bc.getD (.is .UBWT) := by
  unfold assign
  cases h : a.field with
  | inl net => exact Or.inl ⟨net, rfl, rfl, rfl, rfl⟩
  | inr bs => exact Or.inr ⟨bs, rfl, rfl, rfl, rfl⟩

theorem samePipes_near {Rd : List (List ℝ)} (h : samePipes Rd = some true) : ∀ r ∈ Rd, Near (Rd.headD []) r := by
  unfold samePipes at h
  split_ifs at h with h1
  have h2 := of_decide_eq_true (Option.some.inj h)
  intro r hr
  exact ⟨(h1 r hr).symm, h2 r hr⟩

/-- The mass flow rates and the heat capacity after `_format_inputs`. -/
theorem assign_flows {a : Args} {net : Net} (h : a.field = .inl net) :
    ((assign a).mb = a.mb ∧ (assign a).mn = a.mn ∨
      a.mb = .none ∧ a.mn = .none ∧ ((∃ x, net.m = .flt x ∧ (assign a).mb = .none ∧ (assign a).mn = .flt x) ∨
        (∃ v, net.m = .arr1 v ∧ (assign a).mb = .arr1 v ∧ (assign a).mn = .none) ∨ ∃ v, net.m = .arr2 v ∧ (assign a).mb = .arr2 v ∧ (assign a).mn = .none)) ∧
    ((assign a).cp = a.cp ∨ a.cp = .none ∧ ∃ x, net.cp = .flt x ∧ (assign a).cp = .flt x) := by
  unfold assign
  rw [h]
  dsimp only
  constructor
  · cases h1 : a.mb <;> cases h2 : a.mn <;> cases h3 : net.m <;> simp
  · cases h1 : a.cp <;> cases h3 : net.cp <;> simp

theorem boreFlows_some {v : Val} {fl : List (List ℝ) × ℕ} (h : boreFlows v = some fl) : fl.1 = perBorehole v := by
  cases v <;> simp only [boreFlows, Option.some.injEq, reduceCtorEq] at h <;> subst h <;> rfl

theorem netFlows_none (fl : List (List ℝ) × ℕ) : netFlows fl .none = fl := rfl

theorem netFlows_fst (fl : List (List ℝ) × ℕ) {v : Val} (h : v ≠ .none) : (netFlows fl v).1 = perNetwork v := by
  cases v <;> first | exact absurd rfl h | rfl

/-! ### C51: a valid configuration or an exception -/

/-- **C51**.  If the construction succeeds, the field is not empty and has no two boreholes closer than the largest radius; the boundary condition is the one given, or the
documented default; with the mixed inlet condition there is a network, whose boreholes are used, and not both kinds of mass flow rates are given;
the equivalent method is used for vertical boreholes with the same segments only, and with the mixed inlet condition for parallel networks with flow rates shared equally by the boreholes and
pipes of the same resistances only. -/
theorem construct_valid {a : Args} {s : Solver} (h : construct a = some s) :
    (s.boreholes ≠ [] ∧ ∃ r, IsMaxRadius s.boreholes r ∧ ∀ i j, ¬ CloseAt s.boreholes r i j) ∧
    (a.bc.getD (match a.field with | .inl _ => .is .MIFT | .inr _ => .is .UBWT) = .is s.bc) ∧
    (s.bc = .MIFT → ∃ net, a.field = .inl net ∧ s.network = some net ∧ s.boreholes = net.b ∧ s.cp ≠ .none ∧ (a.mb = .none ∨ a.mn = .none)) ∧
    (s.kind = .equivalent → (∀ b ∈ s.boreholes, ¬ tilted b.tilt) ∧ (∀ n ∈ s.ns, ∀ m ∈ s.ns, n = m)) ∧
    (s.kind = .equivalent → s.bc = .MIFT → ∃ net, s.network = some net ∧ (∀ c ∈ net.c, c = -1) ∧ (∀ r ∈ net.Rd, Near (net.Rd.headD []) r) ∧ a.mb = .none ∧
      (s.flows = perNetwork a.mn ∨ s.flows = perNetwork net.m)) := by
  obtain ⟨st, fl, h1, h2, h3, h4, h5, h6, h7, h8, h9, h10, h11⟩ := construct_some h
  obtain ⟨c1, c2, c3, c4, c5⟩ := check_some h2
  obtain ⟨f1, f2, f3, f4, f5, f6⟩ := switch_fields h1
  have hex : s.bc = .MIFT → ∃ net, a.field = .inl net ∧ s.network = some net ∧ s.boreholes = net.b ∧ st.network = some net ∧ miftOk st net := by
    intro hb
    obtain ⟨net, e1, e2⟩ := c5 hb
    rcases assign_network a with ⟨net', g1, g2, g3, -⟩ | ⟨bs, g1, g2, -⟩
    · rw [f1, g2] at e1
      obtain rfl := Option.some.inj e1
      exact ⟨net', g1, by rw [h7, f1, g2], by rw [h8, f2, g3], by rw [f1, g2], e2⟩
    · rw [f1, g2] at e1; cases e1
  refine ⟨⟨by rw [h8]; exact c1, ?_⟩, ?_, ?_, ?_, ?_⟩
  · obtain ⟨ps, r, d1, d2, -, d4⟩ := find_duplicates_exact st.boreholes c1
    rw [c2] at d1
    obtain rfl := Option.some.inj d1
    rw [h8]
    refine ⟨r, d2, fun i j hc => ?_⟩
    have := (d4 (i, j)).mpr ⟨i, j, rfl, hc⟩
    simp at this
  · rw [f3] at c3
    rcases assign_network a with ⟨net, g1, -, -, g4⟩ | ⟨bs, g1, -, -, g4⟩
    · rw [g1]; exact g4.symm.trans c3
    · rw [g1]; exact g4.symm.trans c3
  · intro hb
    obtain ⟨net, e1, e2, e3, -, e5⟩ := hex hb
    refine ⟨net, e1, e2, e3, by rw [h11]; exact e5.2.2.1, ?_⟩
    by_contra hne
    push Not at hne
    rcases (assign_flows e1).1 with ⟨g1, g2⟩ | ⟨g1, -⟩
    · exact e5.2.1 ⟨by rw [f5, g2]; exact hne.2, by rw [f4, g1]; exact hne.1⟩
    · exact hne.1 g1
  · intro hk
    obtain ⟨q1, -, q3, -⟩ := h6 hk
    exact ⟨by rw [h8]; exact q3, fun n hn m hm => (q1 n hn).trans (q1 m hm).symm⟩
  · intro hk hb
    obtain ⟨net, e1, e2, e3, e4, e5⟩ := hex hb
    obtain ⟨q1, q2, q3⟩ := (h6 hk).2.2.2 hb net e4
    have hmn : st.mn ≠ .none := fun h0 => e5.1 ⟨h0, q2⟩
    refine ⟨net, e2, q1, samePipes_near q3, ?_, ?_⟩
    · rcases (assign_flows e1).1 with ⟨g1, g2⟩ | ⟨g1, -⟩
      · rw [← g1, ← f4, q2]
      · exact g1
    · rw [h9, netFlows_fst fl hmn, f5]
      rcases (assign_flows e1).1 with ⟨g1, g2⟩ | ⟨-, -, ⟨x, g3, -, g4⟩ | ⟨v, g3, g4, -⟩ | ⟨v, g3, g4, -⟩⟩
      · rw [g2]; exact Or.inl rfl
      · rw [g4, g3]; exact Or.inr rfl
      · rw [← f4, q2] at g4; cases g4
      · rw [← f4, q2] at g4; cases g4

/-- **C50** (construction from a network).  With the mixed inlet condition the mass flow rates and the heat capacity given are used, and the values stored in the network otherwise. -/
theorem construct_uses_arguments {a : Args} {s : Solver} (h : construct a = some s) (hb : s.bc = .MIFT) :
    ∃ net, s.network = some net ∧
      (a.mb ≠ .none ∧ s.flows = perBorehole a.mb ∧ columns s.flows = net.c.count (-1) ∨ a.mn ≠ .none ∧ s.flows = perNetwork a.mn ∨
        a.mb = .none ∧ a.mn = .none ∧ ((∃ x, net.m = .flt x ∧ s.flows = [[x]]) ∨ (s.flows = perBorehole net.m ∧ columns s.flows = net.c.count (-1)))) ∧
      (a.cp ≠ .none ∧ s.cp = a.cp ∨ a.cp = .none ∧ ∃ x, net.cp = .flt x ∧ s.cp = .flt x) := by
  obtain ⟨-, -, hm, -, -⟩ := construct_valid h
  obtain ⟨net, e1, e2, -, e4, e5⟩ := hm hb
  obtain ⟨st, fl, h1, h2, h3, h4, h5, h6, h7, h8, h9, h10, h11⟩ := construct_some h
  obtain ⟨c1, c2, c3, c4, c5⟩ := check_some h2
  obtain ⟨f1, f2, f3, f4, f5, f6⟩ := switch_fields h1
  obtain ⟨net', n1, n2⟩ := c5 hb
  rw [← h7, e2] at n1
  obtain rfl := Option.some.inj n1
  have hcols : st.mb ≠ .none → columns (perBorehole st.mb) = net.nInlets := by
    intro hne
    rw [← boreFlows_some h4]
    exact h5 hb hne net (by rw [← h7, e2])
  refine ⟨net, e2, ?_, ?_⟩
  · by_cases hmn : st.mn = .none
    · have hmb : st.mb ≠ .none := fun h0 => n2.1 ⟨hmn, h0⟩
      have hfl : s.flows = perBorehole st.mb := by rw [h9, hmn, netFlows_none, boreFlows_some h4]
      have hc := hcols hmb
      rw [← hfl] at hc
      rw [f4] at hfl hmb
      rcases (assign_flows e1).1 with ⟨g1, g2⟩ | ⟨g1, g2, ⟨x, g3, -, g4⟩ | ⟨v, g3, g4, -⟩ | ⟨v, g3, g4, -⟩⟩
      · exact Or.inl ⟨by rw [← g1]; exact hmb, by rw [hfl, g1], hc⟩
      · rw [← f5, hmn] at g4; cases g4
      · exact Or.inr (Or.inr ⟨g1, g2, Or.inr ⟨by rw [hfl, g4, g3], hc⟩⟩)
      · exact Or.inr (Or.inr ⟨g1, g2, Or.inr ⟨by rw [hfl, g4, g3], hc⟩⟩)
    · have hfl : s.flows = perNetwork st.mn := by rw [h9, netFlows_fst fl hmn]
      rw [f5] at hfl hmn
      rcases (assign_flows e1).1 with ⟨g1, g2⟩ | ⟨g1, g2, ⟨x, g3, -, g4⟩ | ⟨v, g3, -, g4⟩ | ⟨v, g3, -, g4⟩⟩
      · exact Or.inr (Or.inl ⟨by rw [← g2]; exact hmn, by rw [hfl, g2]⟩)
      · exact Or.inr (Or.inr ⟨g1, g2, Or.inl ⟨x, g3, by rw [hfl, g4]; rfl⟩⟩)
      · exact absurd g4 hmn
      · exact absurd g4 hmn
  · rw [h11, f6] at e4 ⊢
    rcases (assign_flows e1).2 with g | ⟨g1, x, g2, g3⟩
    · exact Or.inl ⟨by rw [← g]; exact e4, g⟩
    · exact Or.inr ⟨g1, x, g2, g3⟩

/-! ### C88: the `similarities` method when the `equivalent` method does not apply -/

/-- The mass flow rates given for boreholes, as used. -/
theorem switch_similarities (s : State) : switch { s with method := .is .similarities } = some { s with method := .is .similarities } := by
  unfold switch
  rw [if_neg]
  rintro ⟨-, h⟩
  cases h

theorem assign_method (a : Args) (m : Str Method) : assign { a with method := m } = { assign a with method := m } := by
  unfold assign
  cases a.field <;> rfl

theorem switch_sim {s : State} {net : Net} (hb : s.bc = .is .MIFT) (hm : s.method.fold = some .equivalent) (hn : s.network = some net)
    (h : (¬ ∀ c ∈ net.c, c = -1) ∨ equalFlows s.mb = some false ∨ (equalFlows s.mb = some true ∧ samePipes net.Rd = some false)) :
    switch s = some { s with method := .is .similarities } := by
  unfold switch
  rw [if_pos ⟨hb, hm⟩]
  cases s with
  | mk network boreholes bc method mb mn cp =>
    dsimp only at hb hm hn h ⊢
    subst hn
    dsimp only
    by_cases hc : ∀ c ∈ net.c, c = -1
    · rw [if_neg (not_not.mpr hc)]
      rcases h with h | h | ⟨h, h'⟩
      · exact absurd hc h
      · rw [h]
      · rw [h]
        dsimp only
        rw [h']
    · rw [if_pos hc]

/-- **C88**.  With the mixed inlet condition, the equivalent method is replaced by the similarities method for networks with boreholes in series, for flow rates that differ between
boreholes, and for pipes whose resistances differ. -/
theorem equivalent_replaced {a : Args} {net : Net} (hf : a.field = .inl net) (hbc : a.bc.getD (.is .MIFT) = .is .MIFT) (hm : a.method.fold = some .equivalent)
    (h : (∃ c ∈ net.c, c ≠ -1) ∨
      (∃ v x, (a.mb = .arr1 v ∨ a.mb = .none ∧ a.mn = .none ∧ net.m = .arr1 v) ∧ v.head? = some x ∧ ∃ y ∈ v, 1 / 10 ^ 8 + 1 / 10 ^ 5 * |x| < |y - x|) ∨
      (a.mb = .none ∧ a.mn ≠ .none ∧ (∀ r ∈ net.Rd, r.length = (net.Rd.headD []).length) ∧ ∃ r ∈ net.Rd, ¬ Near (net.Rd.headD []) r)) :
    construct a = construct { a with method := .is .similarities } := by
  have hn : (assign a).network = some net ∧ (assign a).bc = .is .MIFT ∧ (assign a).method = a.method := by
    unfold assign
    rw [hf]
    exact ⟨rfl, hbc, rfl⟩
  have key : switch (assign a) = some { assign a with method := .is .similarities } := by
    refine switch_sim hn.2.1 (by rw [hn.2.2]; exact hm) hn.1 ?_
    rcases h with ⟨c, h1, h2⟩ | ⟨v, x, h1, h2, y, hy, h3⟩ | ⟨h1, h2, h3, r, hr, h4⟩
    · exact Or.inl fun hc => h2 (hc c h1)
    · refine Or.inr (Or.inl ?_)
      have e : (assign a).mb = .arr1 v := by
        unfold assign
        rw [hf]
        rcases h1 with h1 | ⟨h1, h1', h1''⟩
        · simp only [h1]
        · simp only [h1, h1', h1'']
      rw [e]
      cases v with
      | nil => simp at h2
      | cons z v =>
        simp only [List.head?_cons, Option.some.injEq] at h2
        subst h2
        refine congrArg some (decide_eq_false fun h5 => ?_)
        exact absurd (h5 y hy) (not_le.mpr h3)
    · refine Or.inr (Or.inr ⟨?_, ?_⟩)
      · have e : (assign a).mb = .none := by
          unfold assign
          rw [hf]
          cases h5 : a.mn <;> simp only [h1]
          exact absurd h5 h2
        rw [e]
        rfl
      · unfold samePipes
        rw [if_pos h3]
        refine congrArg some (decide_eq_false fun h5 => ?_)
        exact h4 ⟨(h3 r hr).symm, h5 r hr⟩
  have key' : switch (assign { a with method := .is .similarities }) = some { assign a with method := .is .similarities } := by
    rw [assign_method]
    exact switch_similarities (assign a)
  unfold construct
  rw [key, key']

/-! ### C87: mass flow rates of the boreholes with the `equivalent` method -/

/-- **C87** (violated).  With the mixed inlet condition and mass flow rates of the boreholes, given or stored in the network, the equivalent method is never constructed:
the result of the construction, if any, uses another method. -/
theorem equivalent_borehole_flows {a : Args} {s : Solver} {net : Net} (hf : a.field = .inl net) (h : construct a = some s) (hb : s.bc = .MIFT)
    (hm : a.mb ≠ .none ∨ a.mb = .none ∧ a.mn = .none ∧ ((∃ v, net.m = .arr1 v) ∨ ∃ v, net.m = .arr2 v)) : s.kind ≠ .equivalent := by
  intro hk
  obtain ⟨-, -, -, -, h5⟩ := construct_valid h
  obtain ⟨st, fl, h1, h2, -, -, -, h6, h7, -⟩ := construct_some h
  obtain ⟨net', e1, -⟩ := h5 hk hb
  obtain ⟨-, -, -, f4, f5, -⟩ := switch_fields h1
  have hq := ((h6 hk).2.2.2 hb net' (by rw [← h7]; exact e1)).2.1
  rw [f4] at hq
  rcases hm with hm | ⟨m1, m2, hm⟩
  · rcases (assign_flows hf).1 with ⟨g1, -⟩ | ⟨g1, -⟩
    · exact hm (g1.symm.trans hq)
    · exact hm g1
  · unfold assign at hq
    rw [hf] at hq
    rcases hm with ⟨v, hv⟩ | ⟨v, hv⟩ <;> simp only [m1, m2, hv] at hq <;> cases hq

/-- The construction succeeds when all conditions hold. -/
theorem construct_ok {a : Args} {st : State} {m : Method} {bc : BC} {ns : List ℤ} {rs : List (List ℝ)} {fl : List (List ℝ) × ℕ} (h1 : switch (assign a) = some st) (h2 : check st = some (m, bc))
    (h3 : setup st.boreholes.length a.nSegments a.ratios = some (ns, rs)) (h4 : boreFlows st.mb = some fl) (h5 : columnsOk st bc fl.1) (h6 : m = .equivalent → equivalentOk st bc ns rs) :
    construct a = some ⟨m, bc, st.network, st.boreholes, (netFlows fl st.mn).1, (netFlows fl st.mn).2, st.cp, ns, rs⟩ := by
  unfold construct
  rw [h1]
  dsimp only
  rw [h2]
  dsimp only
  unfold solver
  rw [h3, h4]
  dsimp only
  rw [if_neg (not_not.mpr h5), if_neg fun h => h.2 (h6 h.1)]

theorem check_mift {s : State} {net : Net} {m : Method} (h1 : s.boreholes ≠ []) (h2 : findDuplicates s.boreholes = some []) (h3 : s.bc = .is .MIFT) (h4 : s.method = .is m)
    (h5 : s.network = some net) (h6 : miftOk s net) : check s = some (m, .MIFT) := by
  unfold check
  rw [if_neg h1, if_neg (not_not.mpr h2), h3, h4]
  dsimp only
  rw [h5]
  exact if_pos h6

/-- The same ratios for all boreholes. -/
theorem setup_array {N n : ℕ} (hN : 0 < N) (hn : 1 ≤ n) {r : List ℝ} (hr : r.length = n ∧ r.sum = 1) :
    setup N (.int n) (.array r) = some (List.replicate N (n : ℤ), List.replicate N r) := by
  unfold setup boreSegments formatRatios
  dsimp only
  have h1 : equalRatiosOk (List.replicate N (n : ℤ)) (List.replicate N r) := by
    refine ⟨fun h => ?_, fun _ q hq => ?_⟩
    · rw [List.replicate_eq_nil_iff] at h; omega
    · obtain ⟨k, rfl⟩ : ∃ k, N = k + 1 := ⟨N - 1, by omega⟩
      rw [List.eq_of_mem_replicate hq]
      exact Or.inl rfl
  have h2 : ∀ p ∈ List.zip (List.replicate N r) (List.replicate N (n : ℤ)), ratioOk p.1 p.2 := by
    intro p hp
    obtain ⟨q1, q2⟩ := List.of_mem_zip (show (p.1, p.2) ∈ _ from hp)
    rw [List.eq_of_mem_replicate q1, List.eq_of_mem_replicate q2]
    exact ⟨by rw [hr.1], by rw [hr.2]; norm_num⟩
  rw [if_neg (not_not.mpr h1), if_neg (not_not.mpr hN), if_neg (not_not.mpr ⟨rfl, fun m hm => by rw [List.eq_of_mem_replicate hm]; exact_mod_cast hn⟩), if_neg (not_not.mpr h2)]

theorem allclose_self (r : List ℝ) : allclose (1 / 10 ^ 5) r r := by
  intro q hq
  have : q.1 = q.2 := by
    obtain ⟨i, hi, h⟩ := List.getElem_of_mem hq
    rw [List.getElem_zip] at h
    rw [← h]
  rw [this, sub_self, abs_zero]
  positivity

theorem samePipes_eq {Rd : List (List ℝ)} (hR : ∀ r ∈ Rd, r = Rd.headD []) : samePipes Rd = some true := by
  unfold samePipes
  rw [if_pos fun r hr => by rw [hR r hr]]
  refine congrArg some (decide_eq_true fun r hr => ?_)
  rw [hR r hr]
  exact allclose_self _

/-- **C87** (violated).  For every parallel network with identical pipes and any equal mass flow rates of the boreholes, the construction with the equivalent method (the default) raises. -/
theorem equal_flows_raise {a : Args} {net : Net} (hf : a.field = .inl net) (hbc : a.bc.getD (.is .MIFT) = .is .MIFT) (hm : a.method = .is .equivalent) (hc : ∀ c ∈ net.c, c = -1)
    (hR : ∀ r ∈ net.Rd, r = net.Rd.headD []) {v : List ℝ} {x : ℝ} (hv : v ≠ []) (hx : ∀ y ∈ v, y = x)
    (hmb : a.mb = .arr1 v ∨ a.mb = .none ∧ a.mn = .none ∧ net.m = .arr1 v) : construct a = none := by
  by_contra hne
  obtain ⟨s, hs⟩ := Option.ne_none_iff_exists'.mp hne
  have hn : (assign a).network = some net ∧ (assign a).bc = .is .MIFT ∧ (assign a).method = .is .equivalent ∧ (assign a).mb = .arr1 v := by
    unfold assign
    rw [hf]
    refine ⟨rfl, hbc, hm, ?_⟩
    rcases hmb with h1 | ⟨h1, h1', h1''⟩
    · simp only [h1]
    · simp only [h1, h1', h1'']
  have e1 : equalFlows (assign a).mb = some true := by
    rw [hn.2.2.2]
    cases v with
    | nil => exact absurd rfl hv
    | cons z v =>
      refine congrArg some (decide_eq_true fun y hy => ?_)
      rw [hx y hy, hx z List.mem_cons_self, sub_self, abs_zero]
      positivity
  have e2 := samePipes_eq hR
  have e3 : switch (assign a) = some (assign a) := by
    unfold switch
    rw [if_pos ⟨hn.2.1, by rw [hn.2.2.1]; rfl⟩, hn.1]
    dsimp only
    rw [if_neg (not_not.mpr hc), e1]
    dsimp only
    rw [e2]
  obtain ⟨st, fl, h1, h2, -⟩ := construct_some hs
  rw [e3] at h1
  obtain rfl := Option.some.inj h1
  obtain ⟨-, -, c3, c4, -⟩ := check_some h2
  rw [hn.2.2.1] at c4
  rw [hn.2.1] at c3
  refine equivalent_borehole_flows hf hs ?_ ?_ ?_
  · injection c3 with h; exact h.symm
  · rcases hmb with h | ⟨g1, g2, g3⟩
    · exact Or.inl (by rw [h]; intro h0; cases h0)
    · exact Or.inr ⟨g1, g2, Or.inl ⟨v, g3⟩⟩
  · injection c4 with h; exact h.symm

/-! ### Examples -/

/-- Two boreholes, 5 m apart. -/
def twoBores : List Borehole := [⟨150, 4, 3 / 40, 0, 0, 0, 0⟩, ⟨150, 4, 3 / 40, 5, 0, 0, 0⟩]

theorem twoBores_distinct : findDuplicates twoBores = some [] := by
  have h : planDist ⟨150, 4, 3 / 40, 0, 0, 0, 0⟩ ⟨150, 4, 3 / 40, 5, 0, 0, 0⟩ = 5 := by
    unfold planDist
    rw [show ((0 : ℝ) - 5) ^ 2 + (0 - 0) ^ 2 = 5 ^ 2 by norm_num, Real.sqrt_sq (by norm_num)]
  simp only [findDuplicates, twoBores, maxRadius, pdist, List.map_cons, List.map_nil, List.append_nil, h, closeIndices, List.foldl_cons, List.foldl_nil, Option.map_some]
  norm_num [List.range_succ]

/-- Two boreholes in parallel with identical pipes, and stored values. -/
def twoNet (m cp : Val) : Net := ⟨twoBores, [-1, -1], m, cp, [[1], [1]]⟩

/-- The construction for the two boreholes with the similarities method. -/
theorem twoNet_construct (m cp : Val) (mb mn c : Val) (hx : mb = .none ∧ (∃ x, mn = .flt x) ∨ mn = .none ∧ ∃ x y, mb = .arr1 [x, y]) (hc : ∃ x, c = .flt x) :
    ∃ s, construct ⟨.inl (twoNet m cp), .is .similarities, none, mb, mn, c, .int 1, .array [1]⟩ = some s ∧ s.bc = .MIFT ∧ s.kind = .similarities ∧ s.network = some (twoNet m cp) := by
  obtain ⟨z, rfl⟩ := hc
  have ha : assign ⟨.inl (twoNet m cp), .is .similarities, none, mb, mn, .flt z, .int 1, .array [1]⟩ =
      ⟨some (twoNet m cp), twoBores, .is .MIFT, .is .similarities, mb, mn, .flt z⟩ := by
    unfold assign
    rcases hx with ⟨rfl, x, rfl⟩ | ⟨rfl, x, y, rfl⟩ <;> rfl
  obtain ⟨fl, hfl⟩ : ∃ fl, boreFlows mb = some fl := by rcases hx with ⟨rfl, x, rfl⟩ | ⟨rfl, x, y, rfl⟩ <;> exact ⟨_, rfl⟩
  have hin : (twoNet m cp).nInlets = 2 := rfl
  refine ⟨_, construct_ok (st := ⟨some (twoNet m cp), twoBores, .is .MIFT, .is .similarities, mb, mn, .flt z⟩) (m := .similarities) (bc := .MIFT)
    (by rw [ha]; exact switch_similarities ⟨some (twoNet m cp), twoBores, .is .MIFT, .is .similarities, mb, mn, .flt z⟩) (check_mift (net := twoNet m cp) (by simp [twoBores]) twoBores_distinct rfl rfl rfl ?_)
    (setup_array (N := 2) (n := 1) (by norm_num) le_rfl ⟨rfl, by norm_num⟩) hfl ?_ (fun h => by cases h), rfl, rfl, rfl⟩
  · rcases hx with ⟨rfl, x, rfl⟩ | ⟨rfl, x, y, rfl⟩ <;> simp [miftOk]
  · intro _ hne net hnet
    obtain rfl := Option.some.inj hnet
    rcases hx with ⟨rfl, x, rfl⟩ | ⟨rfl, x, y, rfl⟩
    · exact absurd rfl hne
    · obtain rfl := Option.some.inj hfl.symm
      rfl

/-- The same network and equal mass flow rates: accepted by the similarities method, not by the equivalent method. -/
example : (∃ s, construct ⟨.inl (twoNet .none .none), .is .similarities, none, .arr1 [1 / 4, 1 / 4], .none, .flt 4000, .int 1, .array [1]⟩ = some s) ∧
    construct ⟨.inl (twoNet .none .none), .is .equivalent, none, .arr1 [1 / 4, 1 / 4], .none, .flt 4000, .int 1, .array [1]⟩ = none := by
  constructor
  · obtain ⟨s, hs, -⟩ := twoNet_construct .none .none (.arr1 [1 / 4, 1 / 4]) .none (.flt 4000) (Or.inr ⟨rfl, _, _, rfl⟩) ⟨_, rfl⟩
    exact ⟨s, hs⟩
  · refine equal_flows_raise (net := twoNet .none .none) (v := [1 / 4, 1 / 4]) (x := 1 / 4) rfl rfl rfl ?_ ?_ (by simp) (by simp) (Or.inl rfl)
    · simp [twoNet]
    · simp [twoNet]

/-- Two boreholes in series: the similarities method is used. -/
example : ∃ s, construct ⟨.inl { twoNet .none .none with c := [-1, 0] }, .is .equivalent, none, .none, .flt (1 / 2), .flt 4000, .int 1, .array [1]⟩ = some s ∧ s.kind = .similarities := by
  have h := equivalent_replaced (a := ⟨.inl { twoNet .none .none with c := [-1, 0] }, .is .equivalent, none, .none, .flt (1 / 2), .flt 4000, .int 1, .array [1]⟩)
    (net := { twoNet .none .none with c := [-1, 0] }) rfl rfl rfl (Or.inl ⟨0, by simp, by norm_num⟩)
  rw [h]
  exact ⟨_, construct_ok (st := ⟨some { twoNet .none .none with c := [-1, 0] }, twoBores, .is .MIFT, .is .similarities, .none, .flt (1 / 2), .flt 4000⟩) (m := .similarities) (bc := .MIFT)
    (switch_similarities ⟨some { twoNet .none .none with c := [-1, 0] }, twoBores, .is .MIFT, .is .similarities, .none, .flt (1 / 2), .flt 4000⟩)
    (check_mift (net := { twoNet .none .none with c := [-1, 0] }) (by simp [twoBores]) twoBores_distinct rfl rfl rfl (by simp [miftOk]))
    (setup_array (N := 2) (n := 1) (by norm_num) le_rfl ⟨rfl, by norm_num⟩) (fl := ([], 0)) rfl (fun _ h => absurd rfl h) (fun h => by cases h), rfl⟩

/-- **C87** (partial): with a mass flow rate into the network the equivalent method is constructed for every parallel network of distinct vertical boreholes with identical pipes and the same
segments. -/
theorem equivalent_network_flow_partial {a : Args} {net : Net} {x : ℝ} (hf : a.field = .inl net) (hbc : a.bc.getD (.is .MIFT) = .is .MIFT) (hm : a.method = .is .equivalent)
    (hc : ∀ c ∈ net.c, c = -1) (hR : ∀ r ∈ net.Rd, r = net.Rd.headD []) (hmb : a.mb = .none) (hmn : a.mn = .flt x ∨ a.mn = .none ∧ net.m = .flt x)
    (hcp : a.cp ≠ .none ∨ ∃ z, net.cp = .flt z) (hne : net.b ≠ []) (hd : findDuplicates net.b = some []) (ht : ∀ b ∈ net.b, b.tilt = 0) {n : ℕ} (hn : 1 ≤ n) {r : List ℝ}
    (hr : r.length = n ∧ r.sum = 1) (hs : a.nSegments = .int n ∧ a.ratios = .array r) : ∃ s, construct a = some s ∧ s.kind = .equivalent ∧ s.bc = .MIFT ∧ s.flows = [[x]] := by
  obtain ⟨z, hz, hz'⟩ : ∃ z, (assign a).cp = z ∧ z ≠ .none := by
    refine ⟨_, rfl, ?_⟩
    unfold assign
    rw [hf]
    dsimp only
    rcases hcp with h | ⟨z, h⟩
    · cases h1 : a.cp <;> first | exact absurd h1 h | simp
    · rw [h]; cases a.cp <;> simp
  have ha : assign a = ⟨some net, net.b, .is .MIFT, .is .equivalent, .none, .flt x, z⟩ := by
    rw [← hz]
    unfold assign
    rw [hf, hbc, hm]
    rcases hmn with h | ⟨h, h'⟩
    · simp only [hmb, h]
    · simp only [hmb, h, h']
  have e3 : switch (assign a) = some (assign a) := by
    rw [ha]
    unfold switch
    rw [if_pos ⟨rfl, rfl⟩]
    dsimp only
    rw [if_neg (not_not.mpr hc)]
    dsimp only [equalFlows]
    rw [samePipes_eq hR]
  rw [ha] at e3
  have hlen : 0 < net.b.length := List.length_pos_iff.mpr hne
  refine ⟨_, construct_ok (a := a) (st := ⟨some net, net.b, .is .MIFT, .is .equivalent, .none, .flt x, z⟩) (m := .equivalent) (bc := .MIFT) (by rw [ha]; exact e3)
    (check_mift (net := net) hne hd rfl rfl rfl ⟨by simp, by simp, hz', by simp⟩) (by rw [hs.1, hs.2]; exact setup_array hlen hn hr) (fl := ([], 0)) rfl
    (fun _ h => absurd rfl h) (fun _ => ⟨?_, ?_, fun b hb => ?_, fun _ net' hn' => ?_⟩), rfl, rfl, rfl⟩
  · intro k hk
    obtain ⟨l, hl⟩ : ∃ l, net.b.length = l + 1 := ⟨net.b.length - 1, by omega⟩
    rw [List.eq_of_mem_replicate hk, hl]
    rfl
  · intro k hk
    obtain ⟨l, hl⟩ : ∃ l, net.b.length = l + 1 := ⟨net.b.length - 1, by omega⟩
    rw [List.eq_of_mem_replicate hk, hl]
    exact allclose_self r
  · rw [ht b hb]
    unfold tilted
    norm_num
  · obtain rfl := Option.some.inj hn'
    exact ⟨hc, rfl, samePipes_eq hR⟩

/-- Non-vacuity: the two boreholes with 8 equal segments. -/
example : ∃ s, construct ⟨.inl (twoNet (.flt (1 / 2)) (.flt 4000)), .is .equivalent, none, .none, .none, .none, .int (8 : ℕ), .array (uniformRatios 8)⟩ = some s ∧ s.kind = .equivalent ∧
    s.bc = .MIFT ∧ s.flows = [[1 / 2]] := by
  refine equivalent_network_flow_partial (net := twoNet (.flt (1 / 2)) (.flt 4000)) (n := 8) (r := uniformRatios 8) rfl rfl rfl ?_ ?_ rfl (Or.inr ⟨rfl, rfl⟩) (Or.inr ⟨_, rfl⟩)
    (by simp [twoNet, twoBores]) twoBores_distinct ?_ (by norm_num) ?_ ⟨rfl, rfl⟩
  · simp [twoNet]
  · simp [twoNet]
  · simp [twoNet, twoBores]
  · norm_num [uniformRatios, List.sum_replicate]

/-! ### C50: other constructions -/

/-- **C50** (violated).  `from_static_params` with the mixed inlet condition uses the heat capacity at 20 °C, whatever the temperature given for the fluid; the network itself stores the
heat capacity at that temperature. -/
theorem from_params_cp {cpOf : HeatCapacity} {Rd : ℝ → ℝ → List (List ℝ)} {bs : List Borehole} {c : Option (List ℤ)} {m T : ℝ} {method : Str Method} {bc : Str BC} {n : NSeg} {r : Ratios}
    {s : Solver} (h : fromParams cpOf Rd bs c m T method bc n r = some s) (hb : s.bc = .MIFT) :
    s.cp = .flt (cpOf 20) ∧ s.flows = [[m]] ∧ ∃ net, s.network = some net ∧ net.cp = .flt (cpOf T) ∧ net.b = bs := by
  unfold fromParams at h
  cases hbc : bc.fold with
  | none => rw [hbc] at h; cases h
  | some x =>
    rw [hbc] at h
    have key : ∀ (f : List Borehole) v, construct ⟨.inr f, method, some bc, .none, .flt m, v, n, r⟩ = some s → False := by
      intro f v h
      obtain ⟨-, -, h3, -⟩ := construct_valid h
      obtain ⟨net, e, -⟩ := h3 hb
      cases e
    cases x with
    | UHTR => exact (key _ _ h).elim
    | UBWT => exact (key _ _ h).elim
    | MIFT =>
      dsimp only at h
      obtain ⟨-, -, h3, -⟩ := construct_valid h
      obtain ⟨net, e1, e2, -⟩ := h3 hb
      obtain ⟨net', g1, g2, g3⟩ := construct_uses_arguments h hb
      injection e1 with e1
      refine ⟨?_, ?_, net, e2, by rw [← e1]; rfl, by rw [← e1]; rfl⟩
      · rcases g3 with ⟨-, g⟩ | ⟨g, -⟩
        · exact g
        · cases g
      · rcases g2 with ⟨g, -⟩ | ⟨-, g⟩ | ⟨-, g, -⟩
        · exact absurd rfl g
        · exact g
        · cases g

/-- **C50** (partial): the heat capacity is that of the fluid when it does not depend on the temperature, or at 20 °C. -/
theorem from_params_partial {cpOf : HeatCapacity} {Rd : ℝ → ℝ → List (List ℝ)} {bs : List Borehole} {c : Option (List ℤ)} {m T : ℝ} {method : Str Method} {bc : Str BC} {n : NSeg}
    {r : Ratios} {s : Solver} (h : fromParams cpOf Rd bs c m T method bc n r = some s) (hb : s.bc = .MIFT) (hT : cpOf T = cpOf 20) :
    s.cp = .flt (cpOf T) ∧ s.flows = [[m]] := by
  obtain ⟨h1, h2, -⟩ := from_params_cp h hb
  exact ⟨by rw [h1, hT], h2⟩

/-- `from_static_params` accepts the boundary condition in lower case in its own check, but the construction then raises. -/
theorem from_params_case (cpOf : HeatCapacity) (Rd : ℝ → ℝ → List (List ℝ)) (bs : List Borehole) (c : Option (List ℤ)) (m T : ℝ) (method : Str Method) (bc : BC) (n : NSeg) (r : Ratios) :
    fromParams cpOf Rd bs c m T method (.cased bc) n r = none := by
  by_contra hne
  obtain ⟨s, hs⟩ := Option.ne_none_iff_exists'.mp hne
  unfold fromParams at hs
  cases bc with
  | UHTR => obtain ⟨-, h, -⟩ := construct_valid hs; cases h
  | UBWT => obtain ⟨-, h, -⟩ := construct_valid hs; cases h
  | MIFT => obtain ⟨-, h, -⟩ := construct_valid hs; cases h

/-- **C50** (violated).  `from_static_params` with a fluid at 5 °C: the heat capacity used is not that of the fluid. -/
theorem from_params_not_used : ∃ (cpOf : HeatCapacity) (T : ℝ) (s : Solver), fromParams cpOf (fun _ _ => [[1], [1]]) twoBores none (1 / 2) T (.is .similarities) (.is .MIFT) (.int 1) (.array [1]) = some s ∧
    s.cp ≠ .flt (cpOf T) := by
  refine ⟨fun T => 4200 - T, 5, ?_⟩
  obtain ⟨s, hs, -⟩ := twoNet_construct (.flt (1 / 2)) (.flt (4200 - 5)) .none (.flt (1 / 2)) (.flt (4200 - 20)) (Or.inl ⟨rfl, _, rfl⟩) ⟨_, rfl⟩
  have hs' : fromParams (fun T => 4200 - T) (fun _ _ => [[1], [1]]) twoBores none (1 / 2) 5 (.is .similarities) (.is .MIFT) (.int 1) (.array [1]) = some s := by
    rw [← hs]; rfl
  obtain ⟨st, fl, -, h2, -⟩ := construct_some hs
  have hb : s.bc = .MIFT := by
    obtain ⟨-, h, -⟩ := construct_valid hs
    injection h with h
    exact h.symm
  refine ⟨s, hs', ?_⟩
  rw [(from_params_cp hs' hb).1]
  intro h
  injection h with h
  norm_num at h

/-- **C50** (violated).  `mixed_inlet_temperature` evaluates the flow rate stored in the network, not the one it is given. -/
theorem mixed_inlet_not_used : ∃ (net : Net) (m cp : ℝ) (s : Solver), mixedInlet net (.flt m) (.flt cp) true (.int 1) (.array [1]) = some s ∧ s.flows ≠ perNetwork (.flt m) ∧ s.cp ≠ .flt cp := by
  obtain ⟨s, hs, hb, -, hn⟩ := twoNet_construct (.flt (1 / 2)) (.flt 4000) .none (.flt (1 / 2)) (.flt 4000) (Or.inl ⟨rfl, _, rfl⟩) ⟨_, rfl⟩
  have hs' : mixedInlet (twoNet (.flt (1 / 2)) (.flt 4000)) (.flt 1) (.flt 3000) true (.int 1) (.array [1]) = some s := by rw [← hs]; rfl
  refine ⟨twoNet (.flt (1 / 2)) (.flt 4000), 1, 3000, s, hs', ?_, ?_⟩
  · obtain ⟨net, -, g, -⟩ := construct_uses_arguments hs hb
    rcases g with ⟨g, -⟩ | ⟨-, g⟩ | ⟨-, g, -⟩
    · exact absurd rfl g
    · rw [g]; norm_num [perNetwork]
    · cases g
  · obtain ⟨net, -, -, g⟩ := construct_uses_arguments hs hb
    rcases g with ⟨-, g⟩ | ⟨g, -⟩
    · rw [g]; intro h; injection h with h; norm_num at h
    · cases g

/-- **C50** (partial): `mixed_inlet_temperature` uses its arguments when they are the values stored in the network. -/
theorem mixed_inlet_partial {net : Net} {m cp : ℝ} {sim : Bool} {n : NSeg} {r : Ratios} {s : Solver} (h : mixedInlet net (.flt m) (.flt cp) sim n r = some s) (hm : net.m = .flt m)
    (hc : net.cp = .flt cp) : s.flows = [[m]] ∧ s.cp = .flt cp ∧ s.network = some net ∧ s.bc = .MIFT ∧ s.kind = (if sim then .similarities else .detailed) := by
  have hb : s.bc = .MIFT := by
    obtain ⟨-, h, -⟩ := construct_valid h
    injection h with h
    exact h.symm
  obtain ⟨net', h1, h2, h3⟩ := construct_uses_arguments h hb
  obtain ⟨-, -, h4, -⟩ := construct_valid h
  obtain ⟨net'', e1, e2, -⟩ := h4 hb
  injection e1 with e1
  subst e1
  rw [e2] at h1
  obtain rfl := Option.some.inj h1
  refine ⟨?_, ?_, e2, hb, ?_⟩
  · rcases h2 with ⟨g, -⟩ | ⟨g, -⟩ | ⟨-, -, ⟨x, g, g'⟩ | ⟨g, g'⟩⟩
    · exact absurd rfl g
    · exact absurd rfl g
    · rw [hm] at g; injection g with g; rw [g', g]
    · exfalso
      obtain ⟨st, fl, k1, -, -, -, -, -, -, -, k9, -⟩ := construct_some h
      obtain ⟨-, -, -, -, k5, -⟩ := switch_fields k1
      have : st.mn = .flt m := by rw [k5]; unfold assign; simp only [hm]
      rw [this] at k9
      rw [g, hm] at k9
      cases k9
  · rcases h3 with ⟨g, -⟩ | ⟨-, x, g, g'⟩
    · exact absurd rfl g
    · rw [g', ← g, hc]
  · obtain ⟨st, fl, k1, k2, -⟩ := construct_some h
    obtain ⟨-, -, -, k4, -⟩ := check_some k2
    rcases switch_some k1 with rfl | ⟨-, -, k⟩
    · have : (assign ⟨.inl net, oldMethod sim, some (.is .MIFT), .none, .none, .none, n, r⟩).method = oldMethod sim := rfl
      rw [this] at k4
      cases sim <;> injection k4 with k4 <;> exact k4.symm
    · cases sim <;> cases k

/-- **C50**.  `equal_inlet_temperature` uses the mass flow rate per borehole for every borehole. -/
theorem equal_inlet_uses {bs : List Borehole} {Rd : List (List ℝ)} {m cp : ℝ} {sim : Bool} {n : NSeg} {r : Ratios} {s : Solver}
    (h : equalInlet bs Rd (.flt m) (.flt cp) sim n r = some s) : s.flows = [[m * bs.length]] ∧ s.cp = .flt cp ∧ s.boreholes = bs ∧ s.bc = .MIFT := by
  have h' : mixedInlet ⟨bs, List.replicate bs.length (-1), .flt (m * bs.length), .flt cp, Rd⟩ (.flt (m * bs.length)) (.flt cp) sim n r = some s := h
  obtain ⟨h1, h2, h3, h4, -⟩ := mixed_inlet_partial h' rfl rfl
  obtain ⟨-, -, h5, -⟩ := construct_valid h'
  obtain ⟨net, e1, -, e3, -⟩ := h5 h4
  injection e1 with e1
  subst e1
  exact ⟨h1, h2, e3, h4⟩

/-- A mass flow rate that is a numpy number is not read from the network: `equal_inlet_temperature` raises. -/
theorem equal_inlet_numpy (bs : List Borehole) (Rd : List (List ℝ)) (m : ℝ) (cp : Val) (sim : Bool) (n : NSeg) (r : Ratios) : equalInlet bs Rd (.npf m) cp sim n r = none := by
  by_contra hne
  obtain ⟨s, hs⟩ := Option.ne_none_iff_exists'.mp hne
  have hb : s.bc = .MIFT := by
    obtain ⟨-, h, -⟩ := construct_valid hs
    injection h with h
    exact h.symm
  obtain ⟨st, fl, k1, k2, -⟩ := construct_some hs
  obtain ⟨-, -, -, -, k5⟩ := check_some k2
  obtain ⟨-, -, -, f4, f5, -⟩ := switch_fields k1
  obtain ⟨net, -, q⟩ := k5 hb
  exact q.1 ⟨by rw [f5]; rfl, by rw [f4]; rfl⟩

/-! ### Times -/

/-- The times used are the times given with negative values replaced by zero; they are accepted exactly when these do not decrease. -/
theorem times_spec (t : List ℝ) : (times t = some (t.map fun x => max x 0) ∧ (t.map fun x => max x 0).Pairwise (· ≤ ·)) ∨
    (times t = none ∧ ¬ (t.map fun x => max x 0).Pairwise (· ≤ ·)) := by
  have hchain : ∀ l : List ℝ, (∀ p ∈ List.zip l l.tail, p.1 ≤ p.2) ↔ l.Pairwise (· ≤ ·) := by
    intro l
    induction l with
    | nil => simp
    | cons a l ih =>
      cases l with
      | nil => simp
      | cons b l =>
        rw [List.tail_cons, List.zip_cons_cons]
        rw [List.tail_cons] at ih
        constructor
        · intro h
          have h1 := ih.mp fun p hp => h p (List.mem_cons_of_mem _ hp)
          have h2 : a ≤ b := h (a, b) List.mem_cons_self
          rw [List.pairwise_cons]
          refine ⟨fun c hc => ?_, h1⟩
          rcases List.mem_cons.mp hc with rfl | hc
          · exact h2
          · exact h2.trans ((List.pairwise_cons.mp h1).1 c hc)
        · intro h p hp
          rw [List.pairwise_cons] at h
          rcases List.mem_cons.mp hp with rfl | hp
          · exact h.1 b List.mem_cons_self
          · exact ih.mpr h.2 p hp
  have hone : ∀ l : List ℝ, l.length = 1 → l.Pairwise (· ≤ ·) := by
    intro l hl
    obtain ⟨a, rfl⟩ := List.length_eq_one_iff.mp hl
    exact List.pairwise_singleton _ _
  by_cases h : (t.map fun x => max x 0).Pairwise (· ≤ ·)
  · exact Or.inl ⟨if_pos (Or.inr ((hchain _).mpr h)), h⟩
  · refine Or.inr ⟨if_neg ?_, h⟩
    rintro (h1 | h1)
    · exact h (hone _ h1)
    · exact h ((hchain _).mp h1)

end Verif.Gf
