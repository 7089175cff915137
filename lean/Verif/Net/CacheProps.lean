import Verif.Net.CacheModel
import Verif.Net.FlowProps

/-!
# Property C37: results do not depend on earlier calls (violated for the network outlet)
-/

noncomputable section

namespace Verif.Net

variable {A F V B U W : Type*} (M : Machine A F V B U W)

/-! Specification: results of the methods as functions of their arguments only. -/

def pureFluid (a : A) : V := M.fluid (M.fmt a) (M.inlet (M.fmt a))
def pureHeat (a : A) : U := M.sum (pureFluid M a)
def pureNetIn (a : A) : U := M.inv (pureHeat M a)
def pureBore (a : A) : B := M.bore (M.fmt a) (M.inlet (M.fmt a))
def pureNetOut (a : A) : U := M.comb (M.mix (M.fmt a)) (M.outlet (M.fmt a))

/-- What is stored for a method was computed from the arguments stored with it. -/
def Good {X : Type*} (s : Option (A × X)) (g : A → X) (S : A → Prop) : Prop := ∀ k v, s = some (k, v) → v = g k ∧ S k

/-- Invariant for arguments in the set `S`; mixing weights and network outlet are not covered. -/
structure Inv (S : A → Prop) (s : St A F V B U W) : Prop where
  inlet : Good s.sInlet (fun a => M.inlet (M.fmt a)) S
  outlet : Good s.sOutlet (fun a => M.outlet (M.fmt a)) S
  netIn : Good s.sNetIn (pureNetIn M) S
  bore : Good s.sBore (pureBore M) S
  fluid : Good s.sFluid (pureFluid M) S
  heat : Good s.sHeat (pureHeat M) S

variable {M} {S : A → Prop}

theorem lookup_good {X : Type*} {hit : A → A → Bool} {s : Option (A × X)} {g : A → X} {a : A} {v : X}
    (hg : Good s g S) (hS : ∀ k a, S k → S a → hit k a = true → k = a) (ha : S a)
    (h : lookup hit s a = some v) : v = g a := by
  unfold lookup at h
  cases s with
  | none => simp at h
  | some kv =>
    obtain ⟨k, w⟩ := kv
    simp only at h
    split_ifs at h with hh
    simp only [Option.some.injEq] at h
    subst h
    obtain ⟨h1, h2⟩ := hg k w rfl
    rw [h1, hS k a h2 ha hh]

theorem good_new {X : Type*} (g : A → X) (a : A) (ha : S a) : Good (some (a, g a)) g S := by
  intro k v h
  simp only [Option.some.injEq, Prod.mk.injEq] at h
  obtain ⟨rfl, rfl⟩ := h
  exact ⟨rfl, ha⟩

variable (hS : ∀ k a, S k → S a → M.hit k a = true → k = a)
include hS

theorem callInlet_inv {a : A} (ha : S a) {s : St A F V B U W} (hs : Inv M S s) :
    (callInlet M a s).1 = M.inlet (M.fmt a) ∧ Inv M S (callInlet M a s).2 := by
  unfold callInlet
  cases h : lookup M.hit s.sInlet a with
  | some v => exact ⟨lookup_good (g := fun a => M.inlet (M.fmt a)) hs.inlet hS ha h, hs⟩
  | none => exact ⟨rfl, { hs with inlet := good_new (fun a => M.inlet (M.fmt a)) a ha }⟩

theorem callOutlet_inv {a : A} (ha : S a) {s : St A F V B U W} (hs : Inv M S s) :
    (callOutlet M a s).1 = M.outlet (M.fmt a) ∧ Inv M S (callOutlet M a s).2 := by
  unfold callOutlet
  cases h : lookup M.hit s.sOutlet a with
  | some v => exact ⟨lookup_good (g := fun a => M.outlet (M.fmt a)) hs.outlet hS ha h, hs⟩
  | none => exact ⟨rfl, { hs with outlet := good_new (fun a => M.outlet (M.fmt a)) a ha }⟩

omit hS in
theorem inv_setF {s : St A F V B U W} (hs : Inv M S s) (f : Option F) : Inv M S { s with f := f } :=
  { hs with }

theorem callBore_inv {a : A} (ha : S a) {s : St A F V B U W} (hs : Inv M S s) :
    (callBore M a s).1 = pureBore M a ∧ Inv M S (callBore M a s).2 := by
  unfold callBore
  cases h : lookup M.hit s.sBore a with
  | some v => exact ⟨lookup_good hs.bore hS ha h, hs⟩
  | none =>
    obtain ⟨h1, h2⟩ := callInlet_inv hS ha (inv_setF hs (some (M.fmt a)))
    simp only
    rw [h1]
    exact ⟨rfl, { h2 with bore := good_new (pureBore M) a ha }⟩

theorem callFluid_inv {a : A} (ha : S a) {s : St A F V B U W} (hs : Inv M S s) :
    (callFluid M a s).1 = pureFluid M a ∧ Inv M S (callFluid M a s).2 := by
  unfold callFluid
  cases h : lookup M.hit s.sFluid a with
  | some v => exact ⟨lookup_good hs.fluid hS ha h, hs⟩
  | none =>
    obtain ⟨h1, h2⟩ := callInlet_inv hS ha (inv_setF hs (some (M.fmt a)))
    simp only
    rw [h1]
    exact ⟨rfl, { h2 with fluid := good_new (pureFluid M) a ha }⟩

theorem callHeat_inv {a : A} (ha : S a) {s : St A F V B U W} (hs : Inv M S s) :
    (callHeat M a s).1 = pureHeat M a ∧ Inv M S (callHeat M a s).2 := by
  unfold callHeat
  cases h : lookup M.hit s.sHeat a with
  | some v => exact ⟨lookup_good hs.heat hS ha h, hs⟩
  | none =>
    obtain ⟨h1, h2⟩ := callFluid_inv hS ha hs
    simp only
    rw [h1]
    exact ⟨rfl, { h2 with heat := good_new (pureHeat M) a ha }⟩

theorem callNetIn_inv {a : A} (ha : S a) {s : St A F V B U W} (hs : Inv M S s) :
    (callNetIn M a s).1 = pureNetIn M a ∧ Inv M S (callNetIn M a s).2 := by
  unfold callNetIn
  cases h : lookup M.hit s.sNetIn a with
  | some v => exact ⟨lookup_good hs.netIn hS ha h, hs⟩
  | none =>
    obtain ⟨h1, h2⟩ := callHeat_inv hS ha hs
    simp only
    rw [h1]
    exact ⟨rfl, { h2 with netIn := good_new (pureNetIn M) a ha }⟩

omit hS in
theorem callMix_inv {a : A} {s : St A F V B U W} (hs : Inv M S s) : Inv M S (callMix M a s).2 := by
  unfold callMix
  cases lookup M.near s.mixS a with
  | some w => exact hs
  | none => cases s.f with
    | some f => exact { hs with }
    | none => exact hs

theorem callNetOut_inv {a : A} (ha : S a) {s : St A F V B U W} (hs : Inv M S s) :
    Inv M S (callNetOut M a s).2 := by
  unfold callNetOut
  cases h : lookup M.hit s.sNetOut a with
  | some v => exact hs
  | none =>
    obtain ⟨-, h2⟩ := callOutlet_inv hS ha hs
    have h3 := callMix_inv (a := a) h2
    simp only
    cases (callMix M a (callOutlet M a s).2).1 with
    | some w => exact { h3 with }
    | none => exact h3

theorem step_inv {s : St A F V B U W} (hs : Inv M S s) (c : Call A) (hc : S c.arg) : Inv M S (step M s c) := by
  cases c with
  | inlet a => exact (callInlet_inv hS hc hs).2
  | outlet a => exact (callOutlet_inv hS hc hs).2
  | netIn a => exact (callNetIn_inv hS hc hs).2
  | netOut a => exact callNetOut_inv hS hc hs
  | bore a => exact (callBore_inv hS hc hs).2
  | fluid a => exact (callFluid_inv hS hc hs).2
  | heat a => exact (callHeat_inv hS hc hs).2

theorem run_inv (hist : List (Call A)) (hh : ∀ c ∈ hist, S c.arg) : Inv M S (run M hist) := by
  unfold run
  have key : ∀ (l : List (Call A)) (s : St A F V B U W), (∀ c ∈ l, S c.arg) → Inv M S s →
      Inv M S (l.foldl (step M) s) := by
    intro l
    induction l with
    | nil => intro s _ hs; exact hs
    | cons c l ih =>
      intro s hl hs
      exact ih _ (fun d hd => hl d (List.mem_cons_of_mem _ hd)) (step_inv hS hs c (hl c List.mem_cons_self))
  refine key hist {} hh ?_
  constructor <;> (intro k v h; simp at h)

/-- **C37** (the part that holds).  For histories whose arguments are told apart by the cache, all methods
but the network outlet temperature return what they would return on a new object.  Missing:
the network outlet temperature (`history_dependent`). -/
theorem history_independent_partial (hist : List (Call A)) (hh : ∀ c ∈ hist, S c.arg) (a : A) (ha : S a) :
    (callInlet M a (run M hist)).1 = (callInlet M a (run M [])).1 ∧
    (callOutlet M a (run M hist)).1 = (callOutlet M a (run M [])).1 ∧
    (callNetIn M a (run M hist)).1 = (callNetIn M a (run M [])).1 ∧
    (callBore M a (run M hist)).1 = (callBore M a (run M [])).1 ∧
    (callFluid M a (run M hist)).1 = (callFluid M a (run M [])).1 ∧
    (callHeat M a (run M hist)).1 = (callHeat M a (run M [])).1 := by
  have h1 := run_inv hS hist hh
  have h0 : Inv M S (run M []) := run_inv hS [] (by simp)
  exact ⟨by rw [(callInlet_inv hS ha h1).1, (callInlet_inv hS ha h0).1],
    by rw [(callOutlet_inv hS ha h1).1, (callOutlet_inv hS ha h0).1],
    by rw [(callNetIn_inv hS ha h1).1, (callNetIn_inv hS ha h0).1],
    by rw [(callBore_inv hS ha h1).1, (callBore_inv hS ha h0).1],
    by rw [(callFluid_inv hS ha h1).1, (callFluid_inv hS ha h0).1],
    by rw [(callHeat_inv hS ha h1).1, (callHeat_inv hS ha h0).1]⟩

omit hS in
/-- For a single operating point the formatted inputs are always those of the arguments. -/
structure Inv1 (M : Machine A F V B U W) (a : A) (s : St A F V B U W) : Prop where
  f : s.f = none ∨ s.f = some (M.fmt a)
  stored : s.sOutlet ≠ none ∨ s.sInlet ≠ none → s.f ≠ none
  outlet : ∀ k v, s.sOutlet = some (k, v) → v = M.outlet (M.fmt a)
  netOut : ∀ k v, s.sNetOut = some (k, v) → v = pureNetOut M a
  mix : ∀ k w, s.mixS = some (k, w) → w = M.mix (M.fmt a)

omit hS in
theorem lookup_some {X : Type*} {hit : A → A → Bool} {s : Option (A × X)} {a : A} {v : X}
    (h : lookup hit s a = some v) : ∃ k, s = some (k, v) := by
  unfold lookup at h
  cases s with
  | none => simp at h
  | some kv =>
    obtain ⟨k, w⟩ := kv
    simp only at h
    split_ifs at h
    simp only [Option.some.injEq] at h
    exact ⟨k, by rw [h]⟩

omit hS in
theorem callInlet_inv1 {a : A} {s : St A F V B U W} (hs : Inv1 M a s) : Inv1 M a (callInlet M a s).2 := by
  unfold callInlet
  cases h : lookup M.hit s.sInlet a with
  | some v => exact hs
  | none => exact ⟨Or.inr rfl, by simp, hs.outlet, hs.netOut, hs.mix⟩

omit hS in
theorem callOutlet_inv1 {a : A} {s : St A F V B U W} (hs : Inv1 M a s) :
    (callOutlet M a s).1 = M.outlet (M.fmt a) ∧ Inv1 M a (callOutlet M a s).2 ∧
    (callOutlet M a s).2.f = some (M.fmt a) := by
  unfold callOutlet
  cases h : lookup M.hit s.sOutlet a with
  | some v =>
    obtain ⟨k, hk⟩ := lookup_some h
    refine ⟨hs.outlet k v hk, hs, ?_⟩
    rcases hs.f with hf | hf
    · exact absurd hf (hs.stored (Or.inl (by rw [hk]; simp)))
    · exact hf
  | none =>
    refine ⟨rfl, ⟨Or.inr rfl, by simp, ?_, hs.netOut, hs.mix⟩, rfl⟩
    intro k v hkv
    simp only [Option.some.injEq, Prod.mk.injEq] at hkv
    exact hkv.2.symm

omit hS in
theorem inv1_setF {a : A} {s : St A F V B U W} (hs : Inv1 M a s) : Inv1 M a { s with f := some (M.fmt a) } :=
  ⟨Or.inr rfl, by simp, hs.outlet, hs.netOut, hs.mix⟩

omit hS in
theorem callFluid_inv1 {a : A} {s : St A F V B U W} (hs : Inv1 M a s) : Inv1 M a (callFluid M a s).2 := by
  unfold callFluid
  cases h : lookup M.hit s.sFluid a with
  | some v => exact hs
  | none =>
    have := callInlet_inv1 (inv1_setF hs)
    exact ⟨this.f, this.stored, this.outlet, this.netOut, this.mix⟩

omit hS in
theorem callBore_inv1 {a : A} {s : St A F V B U W} (hs : Inv1 M a s) : Inv1 M a (callBore M a s).2 := by
  unfold callBore
  cases h : lookup M.hit s.sBore a with
  | some v => exact hs
  | none =>
    have := callInlet_inv1 (inv1_setF hs)
    exact ⟨this.f, this.stored, this.outlet, this.netOut, this.mix⟩

omit hS in
theorem callHeat_inv1 {a : A} {s : St A F V B U W} (hs : Inv1 M a s) : Inv1 M a (callHeat M a s).2 := by
  unfold callHeat
  cases h : lookup M.hit s.sHeat a with
  | some v => exact hs
  | none =>
    have := callFluid_inv1 hs
    exact ⟨this.f, this.stored, this.outlet, this.netOut, this.mix⟩

omit hS in
theorem callNetIn_inv1 {a : A} {s : St A F V B U W} (hs : Inv1 M a s) : Inv1 M a (callNetIn M a s).2 := by
  unfold callNetIn
  cases h : lookup M.hit s.sNetIn a with
  | some v => exact hs
  | none =>
    have := callHeat_inv1 hs
    exact ⟨this.f, this.stored, this.outlet, this.netOut, this.mix⟩

omit hS in
theorem callMix_inv1 {a : A} {s : St A F V B U W} (hs : Inv1 M a s) (hf : s.f = some (M.fmt a)) :
    (callMix M a s).1 = some (M.mix (M.fmt a)) ∧ Inv1 M a (callMix M a s).2 := by
  unfold callMix
  cases h : lookup M.near s.mixS a with
  | some w =>
    obtain ⟨k, hk⟩ := lookup_some h
    exact ⟨by rw [hs.mix k w hk], hs⟩
  | none =>
    simp only [hf]
    refine ⟨trivial, ⟨by simp, by simp, hs.outlet, hs.netOut, ?_⟩⟩
    intro k w hkw
    simp only [Option.some.injEq, Prod.mk.injEq] at hkw
    exact hkw.2.symm

omit hS in
theorem callNetOut_inv1 {a : A} {s : St A F V B U W} (hs : Inv1 M a s) :
    (callNetOut M a s).1 = some (pureNetOut M a) ∧ Inv1 M a (callNetOut M a s).2 := by
  unfold callNetOut
  cases h : lookup M.hit s.sNetOut a with
  | some v =>
    obtain ⟨k, hk⟩ := lookup_some h
    exact ⟨by rw [hs.netOut k v hk], hs⟩
  | none =>
    obtain ⟨h1, h2, h3⟩ := callOutlet_inv1 hs
    obtain ⟨h4, h5⟩ := callMix_inv1 h2 h3
    simp only [h4, h1]
    refine ⟨rfl, ⟨h5.f, h5.stored, h5.outlet, ?_, h5.mix⟩⟩
    intro k v hkv
    simp only [Option.some.injEq, Prod.mk.injEq] at hkv
    exact hkv.2.symm

omit hS in
/-- **C37** (network outlet, the part that holds).  If all earlier calls were made with the same arguments,
the network outlet temperature is the one of a new object. -/
theorem network_outlet_history_partial (M : Machine A F V B U W) (a : A) (hist : List (Call A))
    (hh : ∀ c ∈ hist, c.arg = a) :
    (callNetOut M a (run M hist)).1 = (callNetOut M a (run M [])).1 ∧
    (callNetOut M a (run M [])).1 = some (M.comb (M.mix (M.fmt a)) (M.outlet (M.fmt a))) := by
  have h0 : Inv1 M a ({} : St A F V B U W) := by
    refine ⟨Or.inl rfl, ?_, ?_, ?_, ?_⟩
    · simp
    all_goals (intro k v h; simp at h)
  have key : ∀ (l : List (Call A)) (s : St A F V B U W), (∀ c ∈ l, c.arg = a) → Inv1 M a s →
      Inv1 M a (l.foldl (step M) s) := by
    intro l
    induction l with
    | nil => intro s _ hs; exact hs
    | cons c l ih =>
      intro s hl hs
      refine ih _ (fun d hd => hl d (List.mem_cons_of_mem _ hd)) ?_
      have hca := hl c List.mem_cons_self
      cases c with
      | inlet b => cases hca; exact callInlet_inv1 hs
      | outlet b => cases hca; exact (callOutlet_inv1 hs).2.1
      | netIn b => cases hca; exact callNetIn_inv1 hs
      | netOut b => cases hca; exact (callNetOut_inv1 hs).2
      | bore b => cases hca; exact callBore_inv1 hs
      | fluid b => cases hca; exact callFluid_inv1 hs
      | heat b => cases hca; exact callHeat_inv1 hs
  have h1 := (callNetOut_inv1 (key hist {} hh h0)).1
  have h2 := (callNetOut_inv1 h0).1
  exact ⟨h1.trans h2.symm, h2⟩

omit hS in
/-- **C37** (violated).  Two boreholes in parallel: after asking for the borehole outlet temperatures with
flow rates `(1, 3)` and for the inlet temperatures with flow rates `(1, 1)`, the network outlet
temperature for flow rates `(1, 3)` is mixed with equal weights; a new object gives weights `1/4`, `3/4`. -/
theorem history_dependent : ∃ t : Topology, construct 2 none = .ok t ∧
    ∃ u v : Coef Unit (fun _ : Fin 2 => 1),
      (callNetOut (netMachine t (fun _ : Fin 2 => wallPipe)) ([1, 3], [1])
        (run (netMachine t fun _ => wallPipe) [.outlet ([1, 3], [1]), .inlet ([1, 1], [1])])).1 = some (some u) ∧
      (callNetOut (netMachine t (fun _ : Fin 2 => wallPipe)) ([1, 3], [1])
        (run (netMachine t fun _ => wallPipe) [])).1 = some (some v) ∧
      ∃ Tin Tb, u.eval Tin Tb () = 1 / 2 ∧ v.eval Tin Tb () = 1 / 4 := by
  obtain ⟨t, htd⟩ : ∃ t : Topology, t = ⟨2, [-1, -1], 2, 2, [0, 1], [0, 1], [0, 1]⟩ := ⟨_, rfl⟩
  have ht : construct 2 none = .ok t := by rw [htd]; rfl
  obtain ⟨p, hp⟩ : ∃ p : (i : Fin 2) → Pipe 1, p = fun _ => wallPipe := ⟨_, rfl⟩
  obtain ⟨f, hf⟩ : ∃ f : Formatted, f = ⟨[1, 3], false, 1⟩ := ⟨_, rfl⟩
  obtain ⟨g, hg⟩ : ∃ g : Formatted, g = ⟨[1, 1], false, 1⟩ := ⟨_, rfl⟩
  have hfmt : format t [1, 3] [1] = .ok f := by
    rw [htd, hf]; simp [format, formatFlow, formatCp]
  have hgmt : format t [1, 1] [1] = .ok g := by
    rw [htd, hg]; simp [format, formatFlow, formatCp]
  obtain ⟨ki, ko, hki, hko, hs⟩ := network_temperatures ht p f
  obtain ⟨Tb, hTb⟩ : ∃ Tb : SegIdx (fun _ : Fin 2 => 1) → ℝ, Tb = fun s => if s.1 = 0 then 1 else 0 := ⟨_, rfl⟩
  have hsol : Solves t f (boreA t p f) (boreB t p f) 0 Tb (fun _ => 0) (fun i => if i = 0 then 1 else 0) := by
    refine ⟨?_, ?_, ?_⟩
    · intro i
      simp [boreA, boreB, hp, wallPipe, hTb]
    · intro i j hij
      exfalso
      rw [FedBy, hf, htd] at hij
      fin_cases i <;> fin_cases j <;> simp at hij
    · intro i _; rfl
  obtain ⟨-, hy⟩ := (hs 0 Tb).2 _ _ hsol
  have hyi : ∀ i, ko.eval 0 Tb i = if i = 0 then 1 else 0 := fun i => by rw [← hy]
  have hof : flowOutlets t f = [0, 1] := by rw [hf, htd]; rfl
  have hog : flowOutlets t g = [0, 1] := by rw [hg, htd]; rfl
  rw [← hp]
  have hhit : (netMachine t p).hit ([1, 3], [1]) ([1, 3], [1]) = true := by
    simp [netMachine, closeTo, mcp, bcast, htd]
  have hout : (netMachine t p).outlet ((netMachine t p).fmt ([1, 3], [1])) = some ko := by
    simp only [netMachine, hfmt, Except.toOption, Option.bind_some, hko]
  have hmixf : (netMachine t p).mix ((netMachine t p).fmt ([1, 3], [1])) = mixing [0, 1] f.mIn := by
    simp only [netMachine, hfmt, Except.toOption, hof]
  have hmixg : (netMachine t p).mix ((netMachine t p).fmt ([1, 1], [1])) = mixing [0, 1] g.mIn := by
    simp only [netMachine, hgmt, Except.toOption, hog]
  have hcomb : ∀ w, (netMachine t p).comb w (some ko) = some (netMixed w ko) := fun w => rfl
  refine ⟨t, ht, netMixed (mixing [0, 1] g.mIn) ko, netMixed (mixing [0, 1] f.mIn) ko, ?_, ?_, 0, Tb, ?_, ?_⟩
  · simp only [run, List.foldl_cons, List.foldl_nil, step, callOutlet, callInlet, callNetOut, callMix, lookup, hhit,
      if_true, hout, hmixg, hcomb]
  · rw [(network_outlet_history_partial (netMachine t p) ([1, 3], [1]) [] (by simp)).2, hout, hmixf, hcomb]
  · rw [mixed_eval]
    simp only [hyi]
    rw [Fin.sum_univ_two, hg]
    simp [mixing, List.findIdx?_cons]
    norm_num
  · rw [mixed_eval]
    simp only [hyi]
    rw [Fin.sum_univ_two, hf]
    simp [mixing, List.findIdx?_cons]
    norm_num

omit hS in
/-- Non-vacuity of the hypothesis on the cache: flow rates one apart are told apart by the cache of a
network of two circuits. -/
example (t : Topology) (ht : t.nInlets = 2) (p : (i : Fin 2) → Pipe 1) :
    ∀ k a : NetArgs, (k = ([1, 3], [1]) ∨ k = ([2, 2], [1])) → (a = ([1, 3], [1]) ∨ a = ([2, 2], [1])) →
      (netMachine t p).hit k a = true → k = a := by
  rintro k a (rfl | rfl) (rfl | rfl) h
  · rfl
  · simp [netMachine, closeTo, mcp, bcast, ht] at h
    norm_num at h
  · simp [netMachine, closeTo, mcp, bcast, ht] at h
    norm_num at h
  · rfl

omit hS in
theorem closeTo_get {x y : List ℝ} (h : closeTo x y = true) (i : ℕ) (hx : i < x.length) (hy : i < y.length) : |x[i] - y[i]| < |y[i]| / 1000000 := by
  induction x generalizing y i with
  | nil => simp at hx
  | cons u x ih =>
    cases y with
    | nil => simp at hy
    | cons v y =>
      simp only [closeTo, List.zipWith_cons_cons, List.all_cons, id, Bool.and_eq_true, decide_eq_true_eq] at h
      cases i with
      | zero =>
        have h1 := h.1
        rwa [show |v| * (1 / 10 ^ 6) = |v| / 1000000 by ring] at h1
      | succ i => exact ih (by unfold closeTo; exact h.2) i (by simpa using hx) (by simpa using hy)

omit hS in
/-- The value of an argument for the circuit `i`: a single value is used for all circuits. -/
def perCircuit (l : List ℝ) (i : ℕ) : Option ℝ := if l.length = 1 then l[0]? else l[i]?

omit hS in
theorem bcast_get {k : ℕ} {l : List ℝ} (h : l.length = k ∨ l.length = 1) : (bcast k l).length = k ∧ ∀ i, i < k → (bcast k l)[i]? = perCircuit l i := by
  by_cases h1 : l.length = 1
  · obtain ⟨a, rfl⟩ := List.length_eq_one_iff.mp h1
    refine ⟨by simp [bcast], fun i hi => ?_⟩
    simp [bcast, perCircuit, hi]
  · have hb : bcast k l = l := by
      unfold bcast
      split
      · exact absurd rfl h1
      · rfl
    rw [hb]
    exact ⟨h.resolve_right h1, fun i _ => by rw [perCircuit, if_neg h1]⟩

omit hS in
/-- **C37** (the part that holds, for networks).  The flow rates and heat capacities are given for each of the circuits or once for all; in `S`, two arguments are the same or
differ by at least one part in a million in the product of flow rate and heat capacity of some circuit.  Then, whatever the earlier calls, six of the methods return
what they compute from their own arguments. -/
theorem network_history_partial {n : ℕ} {ns : Fin n → ℕ} (t : Topology) (p : (i : Fin n) → Pipe (ns i)) (S : NetArgs → Prop)
    (hlen : ∀ a, S a → (a.1.length = t.nInlets ∨ a.1.length = 1) ∧ (a.2.length = t.nInlets ∨ a.2.length = 1))
    (hsep : ∀ k a, S k → S a → (∀ (i : ℕ) (x y u v : ℝ), i < t.nInlets → perCircuit a.1 i = some x → perCircuit a.2 i = some y → perCircuit k.1 i = some u →
      perCircuit k.2 i = some v → |x * y - u * v| < |u * v| / 1000000) → k = a)
    (hist : List (Call NetArgs)) (hh : ∀ c ∈ hist, S c.arg) (a : NetArgs) (ha : S a) {f : Option Formatted} (hf : f = (format t a.1 a.2).toOption) :
    (callInlet (netMachine t p) a (run (netMachine t p) hist)).1 = f.bind (fun f => netInlet t p f) ∧
    (callOutlet (netMachine t p) a (run (netMachine t p) hist)).1 = f.bind (fun f => netOutlet t p f) ∧
    (callBore (netMachine t p) a (run (netMachine t p) hist)).1 = f.bind (fun f => (netInlet t p f).map (boreHeat t p f)) ∧
    (callFluid (netMachine t p) a (run (netMachine t p) hist)).1 = f.bind (fun f => (netInlet t p f).map (fluidHeat t p f)) ∧
    (callHeat (netMachine t p) a (run (netMachine t p) hist)).1 = f.bind (fun f => (netInlet t p f).map fun v => netHeat (fluidHeat t p f v)) ∧
    (callNetIn (netMachine t p) a (run (netMachine t p) hist)).1 = f.bind (fun f => (netInlet t p f).bind fun v => netFromHeat (netHeat (fluidHeat t p f v))) := by
  have hS : ∀ k a, S k → S a → (netMachine t p).hit k a = true → k = a := by
    intro k a hk ha hhit
    refine hsep k a hk ha fun i x y u v hi hx hy hu hv => ?_
    obtain ⟨hk1, hk2⟩ := hlen k hk
    obtain ⟨ha1, ha2⟩ := hlen a ha
    obtain ⟨l1, g1⟩ := bcast_get hk1
    obtain ⟨l2, g2⟩ := bcast_get hk2
    obtain ⟨l3, g3⟩ := bcast_get ha1
    obtain ⟨l4, g4⟩ := bcast_get ha2
    rw [← g1 i hi, List.getElem?_eq_some_iff] at hu
    rw [← g2 i hi, List.getElem?_eq_some_iff] at hv
    rw [← g3 i hi, List.getElem?_eq_some_iff] at hx
    rw [← g4 i hi, List.getElem?_eq_some_iff] at hy
    obtain ⟨ix, rfl⟩ := hx
    obtain ⟨iy, rfl⟩ := hy
    obtain ⟨iu, rfl⟩ := hu
    obtain ⟨iv, rfl⟩ := hv
    have hm : closeTo (mcp t.nInlets a) (mcp t.nInlets k) = true := hhit
    unfold mcp at hm
    have := closeTo_get hm i (by simp; omega) (by simp; omega)
    simpa using this
  have h1 := run_inv hS hist hh
  rw [(callInlet_inv hS ha h1).1, (callOutlet_inv hS ha h1).1, (callNetIn_inv hS ha h1).1, (callBore_inv hS ha h1).1, (callFluid_inv hS ha h1).1, (callHeat_inv hS ha h1).1]
  unfold pureNetIn pureHeat pureBore pureFluid
  have e : (netMachine t p).fmt a = f := hf.symm
  rw [e]
  cases f with
  | none => exact ⟨rfl, rfl, rfl, rfl, rfl, rfl⟩
  | some f =>
    refine ⟨rfl, rfl, rfl, rfl, ?_, ?_⟩
    · show (((netInlet t p f).map (fluidHeat t p f)).map netHeat) = _
      rw [Option.map_map]; rfl
    · show (((netInlet t p f).map (fluidHeat t p f)).map netHeat).bind netFromHeat = (netInlet t p f).bind fun v => netFromHeat (netHeat (fluidHeat t p f v))
      cases netInlet t p f <;> rfl

omit hS in
/-- Two operating points of a network of two circuits; one value for both circuits. -/
example (t : Topology) (ht : t.nInlets = 2) (p : (i : Fin 2) → Pipe 1) :
    (callInlet (netMachine t p) ([1, 3], [1]) (run (netMachine t p) [.inlet ([2], [1]), .outlet ([1, 3], [1])])).1 = (format t [1, 3] [1]).toOption.bind fun f => netInlet t p f := by
  refine (network_history_partial t p (fun a => a = ([1, 3], [1]) ∨ a = ([2], [1])) ?_ ?_ _ ?_ _ (Or.inl rfl) rfl).1
  · rintro a (rfl | rfl) <;> simp [ht]
  · rintro k a (rfl | rfl) (rfl | rfl) h
    · rfl
    · have := h 0 2 1 1 1 (by omega) rfl rfl rfl rfl; norm_num at this
    · have := h 0 1 1 2 1 (by omega) rfl rfl rfl rfl; norm_num at this
    · rfl
  · intro c hc; fin_cases hc <;> simp [Call.arg]

end Verif.Net
