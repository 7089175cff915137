import Verif.Net.UpdateModel
import Verif.Net.CacheProps

/-!
# Property C148: a network follows the resistances of its boreholes (violated)
-/

noncomputable section

namespace Verif.Net

variable {P A F V B U W : Type*}

/-! ### Networks with changing pipes as networks whose arguments include the pipes -/

/-- The same methods, the present pipes being part of the arguments. -/
def Fam.tag (N : Fam P A F V B U W) : Machine (A × P) (F × P) V B U W where
  hit := fun k a => N.hit k.1 a.1
  near := fun k a => N.near k.1 a.1
  fmt := fun a => (N.fmt a.1, a.2)
  inlet := fun f => N.inlet f.2 f.1
  outlet := fun f => N.outlet f.2 f.1
  bore := fun f => N.bore f.2 f.1
  fluid := fun f => N.fluid f.2 f.1
  sum := N.sum
  inv := N.inv
  mix := fun f => N.mix f.1
  comb := N.comb

def untag {X : Type*} (s : Option ((A × P) × X)) : Option (A × X) := s.map fun x => (x.1.1, x.2)

/-- The state without the pipes. -/
def er (s : St (A × P) (F × P) V B U W) : St A F V B U W where
  f := s.f.map Prod.fst
  sInlet := untag s.sInlet
  sOutlet := untag s.sOutlet
  sNetIn := untag s.sNetIn
  sNetOut := untag s.sNetOut
  sBore := untag s.sBore
  sFluid := untag s.sFluid
  sHeat := untag s.sHeat
  mixS := untag s.mixS

theorem lookup_untag {X : Type*} (h : A → A → Bool) (s : Option ((A × P) × X)) (a : A) (p : P) :
    lookup h (untag s) a = lookup (fun k b => h k.1 b.1) s (a, p) := by
  cases s <;> rfl

variable (N : Fam P A F V B U W) (p : P) (a : A) (s : St (A × P) (F × P) V B U W)

theorem inlet_er : callInlet (N.at p) a (er s) = ((callInlet N.tag (a, p) s).1, er (callInlet N.tag (a, p) s).2) := by
  unfold callInlet
  have := lookup_untag N.hit s.sInlet a p
  rw [show lookup (N.at p).hit (er s).sInlet a = lookup N.tag.hit s.sInlet (a, p) from this]
  cases lookup N.tag.hit s.sInlet (a, p) <;> rfl

theorem outlet_er : callOutlet (N.at p) a (er s) = ((callOutlet N.tag (a, p) s).1, er (callOutlet N.tag (a, p) s).2) := by
  unfold callOutlet
  have := lookup_untag N.hit s.sOutlet a p
  rw [show lookup (N.at p).hit (er s).sOutlet a = lookup N.tag.hit s.sOutlet (a, p) from this]
  cases lookup N.tag.hit s.sOutlet (a, p) <;> rfl

theorem setF_er : { er s with f := some ((N.at p).fmt a) } = er { s with f := some (N.tag.fmt (a, p)) } := rfl

theorem bore_er : callBore (N.at p) a (er s) = ((callBore N.tag (a, p) s).1, er (callBore N.tag (a, p) s).2) := by
  unfold callBore
  have := lookup_untag N.hit s.sBore a p
  rw [show lookup (N.at p).hit (er s).sBore a = lookup N.tag.hit s.sBore (a, p) from this]
  cases lookup N.tag.hit s.sBore (a, p) with
  | some v => rfl
  | none => simp only [setF_er, inlet_er]; rfl

theorem fluid_er : callFluid (N.at p) a (er s) = ((callFluid N.tag (a, p) s).1, er (callFluid N.tag (a, p) s).2) := by
  unfold callFluid
  have := lookup_untag N.hit s.sFluid a p
  rw [show lookup (N.at p).hit (er s).sFluid a = lookup N.tag.hit s.sFluid (a, p) from this]
  cases lookup N.tag.hit s.sFluid (a, p) with
  | some v => rfl
  | none => simp only [setF_er, inlet_er]; rfl

theorem heat_er : callHeat (N.at p) a (er s) = ((callHeat N.tag (a, p) s).1, er (callHeat N.tag (a, p) s).2) := by
  unfold callHeat
  have := lookup_untag N.hit s.sHeat a p
  rw [show lookup (N.at p).hit (er s).sHeat a = lookup N.tag.hit s.sHeat (a, p) from this]
  cases lookup N.tag.hit s.sHeat (a, p) with
  | some v => rfl
  | none => simp only [fluid_er]; rfl

theorem netIn_er : callNetIn (N.at p) a (er s) = ((callNetIn N.tag (a, p) s).1, er (callNetIn N.tag (a, p) s).2) := by
  unfold callNetIn
  have := lookup_untag N.hit s.sNetIn a p
  rw [show lookup (N.at p).hit (er s).sNetIn a = lookup N.tag.hit s.sNetIn (a, p) from this]
  cases lookup N.tag.hit s.sNetIn (a, p) with
  | some v => rfl
  | none => simp only [heat_er]; rfl

theorem mix_er : callMix (N.at p) a (er s) = ((callMix N.tag (a, p) s).1, er (callMix N.tag (a, p) s).2) := by
  unfold callMix
  have := lookup_untag N.near s.mixS a p
  rw [show lookup (N.at p).near (er s).mixS a = lookup N.tag.near s.mixS (a, p) from this]
  cases lookup N.tag.near s.mixS (a, p) with
  | some v => rfl
  | none =>
    have e : (er s).f = s.f.map Prod.fst := rfl
    simp only [e]
    cases s.f <;> rfl

theorem netOut_er : callNetOut (N.at p) a (er s) = ((callNetOut N.tag (a, p) s).1, er (callNetOut N.tag (a, p) s).2) := by
  unfold callNetOut
  have := lookup_untag N.hit s.sNetOut a p
  rw [show lookup (N.at p).hit (er s).sNetOut a = lookup N.tag.hit s.sNetOut (a, p) from this]
  cases lookup N.tag.hit s.sNetOut (a, p) with
  | some v => rfl
  | none =>
    simp only [outlet_er, mix_er]
    cases (callMix N.tag (a, p) (callOutlet N.tag (a, p) s).2).1 <;> rfl

/-- A call together with the pipes at the time of the call. -/
def Call.withP (p : P) : Call A → Call (A × P)
  | .inlet a => .inlet (a, p)
  | .outlet a => .outlet (a, p)
  | .netIn a => .netIn (a, p)
  | .netOut a => .netOut (a, p)
  | .bore a => .bore (a, p)
  | .fluid a => .fluid (a, p)
  | .heat a => .heat (a, p)

theorem withP_arg (c : Call A) : (c.withP p).arg = (c.arg, p) := by cases c <;> rfl

theorem step_er (c : Call A) : step (N.at p) (er s) c = er (step N.tag s (c.withP p)) := by
  cases c with
  | inlet a => exact congrArg Prod.snd (inlet_er N p a s)
  | outlet a => exact congrArg Prod.snd (outlet_er N p a s)
  | netIn a => exact congrArg Prod.snd (netIn_er N p a s)
  | netOut a => exact congrArg Prod.snd (netOut_er N p a s)
  | bore a => exact congrArg Prod.snd (bore_er N p a s)
  | fluid a => exact congrArg Prod.snd (fluid_er N p a s)
  | heat a => exact congrArg Prod.snd (heat_er N p a s)

/-! ### Specification -/

/-- The pipes after the actions. -/
def present (p : P) : List (Ev P A) → P
  | [] => p
  | .call _ :: l => present p l
  | .update q :: l => present q l

/-- The operating points used so far, each with the pipes at that time. -/
def used (p : P) : List (Ev P A) → List (A × P)
  | [] => []
  | .call c :: l => (c.arg, p) :: used p l
  | .update q :: l => used q l

theorem runU_er (p : P) (evs : List (Ev P A)) : ∃ hist : List (Call (A × P)), runU N p evs = (present p evs, er (run N.tag hist)) ∧ hist.map Call.arg = used p evs := by
  have key : ∀ (evs : List (Ev P A)) (p : P) (s : St (A × P) (F × P) V B U W), ∃ hist : List (Call (A × P)),
      evs.foldl (stepU N) (p, er s) = (present p evs, er (hist.foldl (step N.tag) s)) ∧ hist.map Call.arg = used p evs := by
    intro evs
    induction evs with
    | nil => intro p s; exact ⟨[], rfl, rfl⟩
    | cons e evs ih =>
      intro p s
      cases e with
      | call c =>
        obtain ⟨hist, h1, h2⟩ := ih p (step N.tag s (c.withP p))
        refine ⟨c.withP p :: hist, ?_, ?_⟩
        · rw [List.foldl_cons, List.foldl_cons]
          refine Eq.trans ?_ h1
          congr 1
          exact Prod.ext rfl (step_er N p s c)
        · rw [List.map_cons, h2, withP_arg]; rfl
      | update q =>
        obtain ⟨hist, h1, h2⟩ := ih q s
        exact ⟨hist, h1, h2⟩
  exact key evs p {}

/-- The results of a network with the pipes `p` as functions of the operating point. -/
structure Fresh (N : Fam P A F V B U W) (p : P) (a : A) (s : St A F V B U W) : Prop where
  inlet : (callInlet (N.at p) a s).1 = N.inlet p (N.fmt a)
  outlet : (callOutlet (N.at p) a s).1 = N.outlet p (N.fmt a)
  bore : (callBore (N.at p) a s).1 = N.bore p (N.fmt a) (N.inlet p (N.fmt a))
  fluid : (callFluid (N.at p) a s).1 = N.fluid p (N.fmt a) (N.inlet p (N.fmt a))
  heat : (callHeat (N.at p) a s).1 = N.sum (N.fluid p (N.fmt a) (N.inlet p (N.fmt a)))
  netIn : (callNetIn (N.at p) a s).1 = N.inv (N.sum (N.fluid p (N.fmt a) (N.inlet p (N.fmt a))))

theorem fresh_of_separate (p : P) (evs : List (Ev P A)) (a : A)
    (hsep : ∀ k ∈ used p evs ++ [(a, present p evs)], ∀ b ∈ used p evs ++ [(a, present p evs)], N.hit k.1 b.1 = true → k = b) :
    (runU N p evs).1 = present p evs ∧ Fresh N (present p evs) a (runU N p evs).2 := by
  obtain ⟨hist, h1, h2⟩ := runU_er N p evs
  rw [h1]
  refine ⟨rfl, ?_⟩
  obtain ⟨q, hq⟩ : ∃ q, q = present p evs := ⟨_, rfl⟩
  rw [← hq] at hsep ⊢
  have hS : ∀ k b, k ∈ used p evs ++ [(a, q)] → b ∈ used p evs ++ [(a, q)] → N.tag.hit k b = true → k = b := fun k b hk hb h => hsep k hk b hb h
  have hi := run_inv (M := N.tag) (S := fun k => k ∈ used p evs ++ [(a, q)]) hS hist fun c hc => by
    rw [← h2]; exact List.mem_append_left _ (List.mem_map_of_mem hc)
  have ha : (a, q) ∈ used p evs ++ [(a, q)] := by simp
  refine ⟨?_, ?_, ?_, ?_, ?_, ?_⟩
  · rw [inlet_er]; exact (callInlet_inv hS ha hi).1
  · rw [outlet_er]; exact (callOutlet_inv hS ha hi).1
  · rw [bore_er]; exact (callBore_inv hS ha hi).1
  · rw [fluid_er]; exact (callFluid_inv hS ha hi).1
  · rw [heat_er]; exact (callHeat_inv hS ha hi).1
  · rw [netIn_er]; exact (callNetIn_inv hS ha hi).1

/-! ### The stores after the constructor -/

/-- All seven methods have stored, for `a`, the results with the pipes `p`. -/
structure Full (N : Fam P A F V B U W) (p : P) (a : A) (s : St A F V B U W) : Prop where
  inlet : s.sInlet = some (a, N.inlet p (N.fmt a))
  outlet : s.sOutlet = some (a, N.outlet p (N.fmt a))
  netIn : s.sNetIn = some (a, N.inv (N.sum (N.fluid p (N.fmt a) (N.inlet p (N.fmt a)))))
  netOut : s.sNetOut = some (a, N.comb (N.mix (N.fmt a)) (N.outlet p (N.fmt a)))
  bore : s.sBore = some (a, N.bore p (N.fmt a) (N.inlet p (N.fmt a)))
  fluid : s.sFluid = some (a, N.fluid p (N.fmt a) (N.inlet p (N.fmt a)))
  heat : s.sHeat = some (a, N.sum (N.fluid p (N.fmt a) (N.inlet p (N.fmt a))))

variable {N p a} {s : St A F V B U W}

theorem lookup_self {X : Type*} {h : A → A → Bool} (hh : h a a = true) {o : Option (A × X)} {v : X} (ho : o = some (a, v)) : lookup h o a = some v := by
  rw [ho]; simp [lookup, hh]

theorem step_full (q : P) (hs : Full N p a s) (hh : N.hit a a = true) (c : Call A) (hc : c.arg = a) : step (N.at q) s c = s := by
  cases c <;> (simp only [Call.arg] at hc; subst hc; dsimp only [step])
  · unfold callInlet; rw [lookup_self (h := (N.at q).hit) hh hs.inlet]
  · unfold callOutlet; rw [lookup_self (h := (N.at q).hit) hh hs.outlet]
  · unfold callNetIn; rw [lookup_self (h := (N.at q).hit) hh hs.netIn]
  · unfold callNetOut; rw [lookup_self (h := (N.at q).hit) hh hs.netOut]
  · unfold callBore; rw [lookup_self (h := (N.at q).hit) hh hs.bore]
  · unfold callFluid; rw [lookup_self (h := (N.at q).hit) hh hs.fluid]
  · unfold callHeat; rw [lookup_self (h := (N.at q).hit) hh hs.heat]

theorem warm_full (N : Fam P A F V B U W) (p : P) {a : A} (hh : N.hit a a = true) : Full N p a (runU N p (warm a)).2 := by
  have h' : (N.at p).hit a a = true := hh
  constructor <;>
    simp only [runU, warm, List.foldl_cons, List.foldl_nil, stepU, step, callInlet, callOutlet, callNetIn, callHeat, callFluid, callNetOut, callMix, callBore, lookup,
      h', if_true] <;> rfl

/-- Whatever the pipes become, the seven methods keep returning the results for the pipes at construction. -/
structure Kept (N : Fam P A F V B U W) (p q : P) (a : A) (s : St A F V B U W) : Prop where
  inlet : (callInlet (N.at q) a s).1 = N.inlet p (N.fmt a)
  outlet : (callOutlet (N.at q) a s).1 = N.outlet p (N.fmt a)
  netIn : (callNetIn (N.at q) a s).1 = N.inv (N.sum (N.fluid p (N.fmt a) (N.inlet p (N.fmt a))))
  netOut : (callNetOut (N.at q) a s).1 = some (N.comb (N.mix (N.fmt a)) (N.outlet p (N.fmt a)))
  bore : (callBore (N.at q) a s).1 = N.bore p (N.fmt a) (N.inlet p (N.fmt a))
  fluid : (callFluid (N.at q) a s).1 = N.fluid p (N.fmt a) (N.inlet p (N.fmt a))
  heat : (callHeat (N.at q) a s).1 = N.sum (N.fluid p (N.fmt a) (N.inlet p (N.fmt a)))

theorem full_kept (q : P) (hs : Full N p a s) (hh : N.hit a a = true) : Kept N p q a s := by
  constructor
  · unfold callInlet; rw [lookup_self (h := (N.at q).hit) hh hs.inlet]
  · unfold callOutlet; rw [lookup_self (h := (N.at q).hit) hh hs.outlet]
  · unfold callNetIn; rw [lookup_self (h := (N.at q).hit) hh hs.netIn]
  · unfold callNetOut; rw [lookup_self (h := (N.at q).hit) hh hs.netOut]
  · unfold callBore; rw [lookup_self (h := (N.at q).hit) hh hs.bore]
  · unfold callFluid; rw [lookup_self (h := (N.at q).hit) hh hs.fluid]
  · unfold callHeat; rw [lookup_self (h := (N.at q).hit) hh hs.heat]

theorem constructed_kept (N : Fam P A F V B U W) (p : P) {a : A} (hh : N.hit a a = true) (evs : List (Ev P A)) (he : ∀ c, .call c ∈ evs → c.arg = a) :
    (runU N p (warm a ++ evs)).1 = present p evs ∧ Kept N p (present p evs) a (runU N p (warm a ++ evs)).2 := by
  have hw : (runU N p (warm a)).1 = p := rfl
  have hf := warm_full N p hh
  have key : ∀ (evs : List (Ev P A)) (q : P) (s : St A F V B U W), (∀ c, .call c ∈ evs → c.arg = a) → Full N p a s →
      evs.foldl (stepU N) (q, s) = (present q evs, s) := by
    intro evs
    induction evs with
    | nil => intro q s _ _; rfl
    | cons e evs ih =>
      intro q s he hs
      rw [List.foldl_cons]
      cases e with
      | call c =>
        have : stepU N (q, s) (.call c) = (q, s) := Prod.ext rfl (step_full q hs hh c (he c List.mem_cons_self))
        rw [this]
        exact ih q s (fun c hc => he c (List.mem_cons_of_mem _ hc)) hs
      | update r => exact ih r s (fun c hc => he c (List.mem_cons_of_mem _ hc)) hs
  have e : runU N p (warm a ++ evs) = (present p evs, (runU N p (warm a)).2) := by
    unfold runU at hw hf ⊢
    rw [List.foldl_append]
    have := key evs p _ he hf
    rw [← this]
    congr 1
  rw [e]
  exact ⟨rfl, full_kept _ hf hh⟩

/-! ### Networks -/

section Networks

variable {n : ℕ} {ns : Fin n → ℕ}

/-- The network with changing pipes computes what the network of `CacheModel` computes with the present pipes. -/
theorem netFam_at (t : Topology) (p : (i : Fin n) → Pipe (ns i)) : (netFam t).at p = netMachine t p := rfl

theorem closeTo_self {l : List ℝ} (h : ∀ x ∈ l, x ≠ 0) : closeTo l l = true := by
  induction l with
  | nil => rfl
  | cons x l ih =>
    have hx : 0 < |x| := abs_pos.mpr (h x List.mem_cons_self)
    simp only [closeTo, List.zipWith_cons_cons, List.all_cons, id, sub_self, abs_zero, Bool.and_eq_true, decide_eq_true_eq]
    exact ⟨by positivity, ih fun y hy => h y (List.mem_cons_of_mem _ hy)⟩

/-- The flow rates and heat capacities are given once for all circuits or for each of them. -/
def WellSized (t : Topology) (a : NetArgs) : Prop := (a.1.length = t.nInlets ∨ a.1.length = 1) ∧ (a.2.length = t.nInlets ∨ a.2.length = 1)

/-- The products of flow rate and heat capacity agree to one part in a million in all circuits. -/
def SamePoint (t : Topology) (k a : NetArgs) : Prop := ∀ (i : ℕ) (x y u v : ℝ), i < t.nInlets → perCircuit a.1 i = some x → perCircuit a.2 i = some y →
  perCircuit k.1 i = some u → perCircuit k.2 i = some v → |x * y - u * v| < |u * v| / 1000000

theorem hit_same {t : Topology} {k a : NetArgs} (hk : WellSized t k) (ha : WellSized t a) (h : closeTo (mcp t.nInlets a) (mcp t.nInlets k) = true) : SamePoint t k a := by
  intro i x y u v hi hx hy hu hv
  obtain ⟨l1, g1⟩ := bcast_get hk.1
  obtain ⟨l2, g2⟩ := bcast_get hk.2
  obtain ⟨l3, g3⟩ := bcast_get ha.1
  obtain ⟨l4, g4⟩ := bcast_get ha.2
  rw [← g1 i hi, List.getElem?_eq_some_iff] at hu
  rw [← g2 i hi, List.getElem?_eq_some_iff] at hv
  rw [← g3 i hi, List.getElem?_eq_some_iff] at hx
  rw [← g4 i hi, List.getElem?_eq_some_iff] at hy
  obtain ⟨ix, rfl⟩ := hx
  obtain ⟨iy, rfl⟩ := hy
  obtain ⟨iu, rfl⟩ := hu
  obtain ⟨iv, rfl⟩ := hv
  unfold mcp at h
  have := closeTo_get h i (by simp; omega) (by simp; omega)
  simpa using this

/-- **C148** (the part that holds).  Calls and changes of the resistances of the pipes in any order.  If no two operating points used (`a` included) are
within one part in a million unless they are the same and were used with the same resistances, then six of the methods return for `a` what they compute from
the present resistances.  Missing: operating points used before a change (`kept_after_update`) and the mixed outlet temperature (see C37). -/
theorem update_followed_partial (t : Topology) (p : (i : Fin n) → Pipe (ns i)) (evs : List (Ev ((i : Fin n) → Pipe (ns i)) NetArgs)) (a : NetArgs)
    (hlen : ∀ k ∈ used p evs ++ [(a, present p evs)], WellSized t k.1)
    (hsep : ∀ k ∈ used p evs ++ [(a, present p evs)], ∀ b ∈ used p evs ++ [(a, present p evs)], SamePoint t k.1 b.1 → k = b)
    {q : (i : Fin n) → Pipe (ns i)} (hq : q = present p evs) {f : Formatted} (hf : format t a.1 a.2 = .ok f) :
    (runU (netFam t) p evs).1 = q ∧
    (callInlet (netMachine t q) a (runU (netFam t) p evs).2).1 = netInlet t q f ∧
    (callOutlet (netMachine t q) a (runU (netFam t) p evs).2).1 = netOutlet t q f ∧
    (callBore (netMachine t q) a (runU (netFam t) p evs).2).1 = (netInlet t q f).map (boreHeat t q f) ∧
    (callFluid (netMachine t q) a (runU (netFam t) p evs).2).1 = (netInlet t q f).map (fluidHeat t q f) ∧
    (callHeat (netMachine t q) a (runU (netFam t) p evs).2).1 = ((netInlet t q f).map (fluidHeat t q f)).map netHeat ∧
    (callNetIn (netMachine t q) a (runU (netFam t) p evs).2).1 = (((netInlet t q f).map (fluidHeat t q f)).map netHeat).bind netFromHeat := by
  obtain ⟨h1, h2⟩ := fresh_of_separate (netFam t) p evs a fun k hk b hb hh => hsep k hk b hb (hit_same (hlen k hk) (hlen b hb) hh)
  rw [← hq] at h1 h2
  have e : (netFam (ns := ns) t).fmt a = some f := by
    show (format t a.1 a.2).toOption = some f
    rw [hf]; rfl
  have i1 := h2.inlet
  have i2 := h2.outlet
  have i3 := h2.bore
  have i4 := h2.fluid
  have i5 := h2.heat
  have i6 := h2.netIn
  rw [netFam_at, e] at i1 i2 i3 i4 i5 i6
  exact ⟨h1, i1, i2, i3, i4, i5, i6⟩

/-- **C148** (violated).  A network constructed with its operating point (flow rates and heat capacities not zero): whatever changes are made to the resistances
of its pipes, all the methods called at this operating point return forever the coefficients for the resistances at construction. -/
theorem kept_after_update (t : Topology) (p : (i : Fin n) → Pipe (ns i)) {a : NetArgs} (hnz : ∀ x ∈ mcp t.nInlets a, x ≠ 0)
    (evs : List (Ev ((i : Fin n) → Pipe (ns i)) NetArgs)) (he : ∀ c, .call c ∈ evs → c.arg = a)
    {q : (i : Fin n) → Pipe (ns i)} (hq : q = present p evs) {f : Formatted} (hf : format t a.1 a.2 = .ok f) :
    (runU (netFam t) p (warm a ++ evs)).1 = q ∧
    (callInlet (netMachine t q) a (runU (netFam t) p (warm a ++ evs)).2).1 = netInlet t p f ∧
    (callOutlet (netMachine t q) a (runU (netFam t) p (warm a ++ evs)).2).1 = netOutlet t p f ∧
    (callNetIn (netMachine t q) a (runU (netFam t) p (warm a ++ evs)).2).1 = (((netInlet t p f).map (fluidHeat t p f)).map netHeat).bind netFromHeat ∧
    (callNetOut (netMachine t q) a (runU (netFam t) p (warm a ++ evs)).2).1 = some ((netOutlet t p f).map (netMixed (mixing (flowOutlets t f) f.mIn))) ∧
    (callBore (netMachine t q) a (runU (netFam t) p (warm a ++ evs)).2).1 = (netInlet t p f).map (boreHeat t p f) ∧
    (callFluid (netMachine t q) a (runU (netFam t) p (warm a ++ evs)).2).1 = (netInlet t p f).map (fluidHeat t p f) ∧
    (callHeat (netMachine t q) a (runU (netFam t) p (warm a ++ evs)).2).1 = ((netInlet t p f).map (fluidHeat t p f)).map netHeat := by
  obtain ⟨h1, h2⟩ := constructed_kept (netFam t) p (closeTo_self hnz) evs he
  rw [← hq] at h1 h2
  have e : (netFam (ns := ns) t).fmt a = some f := by
    show (format t a.1 a.2).toOption = some f
    rw [hf]; rfl
  have i1 := h2.inlet
  have i2 := h2.outlet
  have i3 := h2.netIn
  have i4 := h2.netOut
  have i5 := h2.bore
  have i6 := h2.fluid
  have i7 := h2.heat
  rw [netFam_at, e] at i1 i2 i3 i4 i5 i6 i7
  exact ⟨h1, i1, i2, i3, i4, i5, i6, i7⟩

end Networks

end Verif.Net
