import Verif.Gf.DispatchProps

/-!
# Properties of the construction of a g-function: number of flow rates, boundary conditions of the deprecated functions
-/

noncomputable section

namespace Verif.Gf

open Bore Sol

/-- Specification: number of mass flow rates for which the g-function is evaluated; zero for a single one. -/
def flowSets : Val → Val → ℕ
  | .arr2 v, .none => v.length
  | _, .arr1 v => v.length
  | _, .arr2 v => v.length
  | _, _ => 0

/-- **C50** (number of mass flow rates).  The g-function is evaluated for several mass flow rates exactly if an array of mass flow rates of the network, or a two-dimensional array of mass flow rates
of the boreholes is given, or stored in the network if none is given; then for as many as there are. -/
theorem construct_flow_sets {a : Args} {s : Solver} (h : construct a = some s) (hb : s.bc = .MIFT) :
    ∃ net, s.network = some net ∧
      (a.mb ≠ .none ∨ a.mn ≠ .none → s.nMassFlow = flowSets a.mb a.mn) ∧
      (a.mb = .none → a.mn = .none → (∀ x, net.m = .flt x → s.nMassFlow = 0) ∧ (∀ v, net.m = .arr1 v → s.nMassFlow = 0) ∧ ∀ v, net.m = .arr2 v → s.nMassFlow = v.length) := by
  obtain ⟨-, -, hm, -, -⟩ := construct_valid h
  obtain ⟨net, e1, e2, -, -, e5⟩ := hm hb
  obtain ⟨st, fl, h1, h2, h3, h4, h5, h6, h7, h8, h9, h10, h11⟩ := construct_some h
  obtain ⟨-, -, -, f4, f5, -⟩ := switch_fields h1
  rw [f4] at h4
  rw [f5] at h10
  refine ⟨net, e2, fun hne => ?_, fun k1 k2 => ?_⟩
  · rcases (assign_flows e1).1 with ⟨g1, g2⟩ | ⟨g1, g2, -⟩
    · rw [g1] at h4
      rw [g2] at h10
      rw [h10]
      rcases e5 with e5 | e5
      · rw [e5] at h4 ⊢
        obtain rfl := Option.some.inj h4
        cases a.mn <;> rfl
      · rw [e5]
        cases hmb : a.mb <;> rw [hmb] at h4 <;> first | cases h4; done | (obtain rfl := Option.some.inj h4; rfl)
    · exact absurd hne (by simp [g1, g2])
  · have hs : s.nMassFlow = (netFlows fl (assign a).mn).2 := h10
    rcases (assign_flows e1).1 with ⟨g1, g2⟩ | ⟨-, -, ⟨x, g3, g4, g5⟩ | ⟨v, g3, g4, g5⟩ | ⟨v, g3, g4, g5⟩⟩
    · exfalso
      obtain ⟨net', n1, n2⟩ := (check_some h2).2.2.2.2 hb
      exact n2.1 ⟨by rw [f5, g2, k2], by rw [f4, g1, k1]⟩
    all_goals
      rw [g4] at h4
      obtain rfl := Option.some.inj h4
      rw [g3, hs, g5]
      refine ⟨fun y hy => ?_, fun y hy => ?_, fun y hy => ?_⟩ <;> cases hy
      rfl

example : flowSets .none (.arr1 [1 / 2, 1 / 3]) = 2 ∧ flowSets (.arr1 [1 / 2, 1 / 3]) .none = 0 := ⟨rfl, rfl⟩

/-- A construction with several mass flow rates succeeds: the hypotheses of `construct_flow_sets` are met. -/
example : ∃ s, construct ⟨.inl (twoNet .none .none), .is .similarities, none, .none, .flt (1 / 2), .flt 4000, .int 1, .array [1]⟩ = some s ∧ s.bc = .MIFT ∧ s.nMassFlow = 0 := by
  obtain ⟨s, hs, hb, -, -⟩ := twoNet_construct .none .none .none (.flt (1 / 2)) (.flt 4000) (Or.inl ⟨rfl, _, rfl⟩) ⟨_, rfl⟩
  obtain ⟨net, -, h, -⟩ := construct_flow_sets hs hb
  exact ⟨s, hs, hb, h (Or.inr (by simp))⟩

theorem construct_field {bs : List Borehole} {m : Method} {bc : BC} {n : NSeg} {r : Ratios} {s : Solver}
    (h : construct ⟨.inr bs, .is m, some (.is bc), .none, .none, .none, n, r⟩ = some s) :
    s.bc = bc ∧ s.kind = m ∧ s.boreholes = bs ∧ setup bs.length n r = some (s.ns, s.rs) := by
  obtain ⟨st, fl, h1, h2, h3, -, -, -, -, h8, -⟩ := construct_some h
  obtain ⟨-, -, c3, c4, c5⟩ := check_some h2
  obtain ⟨f1, f2, f3, -⟩ := switch_fields h1
  have hbc : s.bc = bc := by
    rw [f3] at c3
    have : (Str.is bc : Str BC) = .is s.bc := c3
    injection this with this
    exact this.symm
  have hbs : st.boreholes = bs := f2
  refine ⟨hbc, ?_, by rw [h8, hbs], by rw [← hbs]; exact h3⟩
  rcases switch_some h1 with rfl | ⟨rfl, g1, -⟩
  · have : (Str.is m : Str Method) = .is s.kind := c4
    injection this with this
    exact this.symm
  · exfalso
    have g : (Str.is bc : Str BC) = .is .MIFT := g1
    injection g with g
    obtain ⟨net, e, -⟩ := c5 (by rw [hbc, g])
    cases e

/-- **C50** (deprecated functions without fluid).  `uniform_heat_extraction` evaluates the g-function for the uniform heat extraction rate with one segment per borehole, `uniform_temperature` for the
uniform temperature with the segments asked for, both with the boreholes given and the similarities method exactly if asked for. -/
theorem uniform_functions {bs : List Borehole} {sim : Bool} {n : NSeg} {r : Ratios} {s : Solver} :
    (uniformHeatExtraction bs sim r = some s → s.bc = .UHTR ∧ s.kind = (if sim then .similarities else .detailed) ∧ s.boreholes = bs ∧ setup bs.length (.int 1) r = some (s.ns, s.rs)) ∧
    (uniformTemperature bs sim n r = some s → s.bc = .UBWT ∧ s.kind = (if sim then .similarities else .detailed) ∧ s.boreholes = bs ∧ setup bs.length n r = some (s.ns, s.rs)) := by
  constructor <;> intro h <;> cases sim <;> exact construct_field h

/-- Both functions succeed for the two boreholes. -/
theorem uniform_twoBores (m : Method) (hm : m ≠ .equivalent) (bc : BC) (hb : bc ≠ .MIFT) : ∃ s, construct ⟨.inr twoBores, .is m, some (.is bc), .none, .none, .none, .int (1 : ℕ), .array [1]⟩ = some s := by
  have hsw : switch (assign ⟨.inr twoBores, .is m, some (.is bc), .none, .none, .none, .int (1 : ℕ), .array [1]⟩) =
      some (assign ⟨.inr twoBores, .is m, some (.is bc), .none, .none, .none, .int (1 : ℕ), .array [1]⟩) := by
    unfold switch
    rw [if_neg]
    rintro ⟨h, -⟩
    have h' : (Str.is bc : Str BC) = .is .MIFT := h
    injection h' with h'
    exact hb h'
  have hc : check (assign ⟨.inr twoBores, .is m, some (.is bc), .none, .none, .none, .int (1 : ℕ), .array [1]⟩) = some (m, bc) := by
    unfold check
    have e : (assign ⟨.inr twoBores, .is m, some (.is bc), .none, .none, .none, .int (1 : ℕ), .array [1]⟩).boreholes = twoBores := rfl
    rw [e, if_neg (by simp [twoBores]), if_neg (not_not.mpr twoBores_distinct)]
    cases bc
    · rfl
    · rfl
    · exact absurd rfl hb
  exact ⟨_, construct_ok hsw hc (setup_array (N := twoBores.length) (by simp [twoBores]) le_rfl ⟨rfl, by simp⟩) rfl (fun h => absurd h hb) fun h => absurd h hm⟩

example : ∃ s, uniformTemperature twoBores true (.int (1 : ℕ)) (.array [1]) = some s := uniform_twoBores .similarities (by decide) .UBWT (by decide)

/-- **C50** (`from_static_params`, connectivity).  With the mixed inlet condition the network connects the boreholes as given, and in parallel by default. -/
theorem from_params_connectivity {cpOf : HeatCapacity} {Rd : ℝ → ℝ → List (List ℝ)} {bs : List Borehole} {c : Option (List ℤ)} {m T : ℝ} {method : Str Method} {bc : Str BC} {n : NSeg} {r : Ratios}
    {s : Solver} (h : fromParams cpOf Rd bs c m T method bc n r = some s) (hb : s.bc = .MIFT) :
    ∃ net, s.network = some net ∧ (∀ l, c = some l → net.c = l) ∧ (c = none → net.c.length = bs.length ∧ ∀ x ∈ net.c, x = -1) := by
  unfold fromParams at h
  cases hbc : bc.fold with
  | none => rw [hbc] at h; cases h
  | some x =>
    rw [hbc] at h
    cases x with
    | UHTR =>
      obtain ⟨net, e, -⟩ := (construct_valid h).2.2.1 hb
      cases e
    | UBWT =>
      obtain ⟨net, e, -⟩ := (construct_valid h).2.2.1 hb
      cases e
    | MIFT =>
      obtain ⟨net, e1, e2, -⟩ := (construct_valid h).2.2.1 hb
      injection e1 with e1
      subst e1
      refine ⟨_, e2, fun l hl => ?_, fun hl => ?_⟩
      · rw [hl]; rfl
      · rw [hl]
        exact ⟨List.length_replicate, fun x hx => List.eq_of_mem_replicate hx⟩

end Verif.Gf
