import Verif.Net.AliasModel
import Verif.Net.ScalarProps

/-!
# Property C114: arguments of a network that the caller modifies in place

A network gives what it computes from the current content of its arguments if the caller never modifies an object that it passed before.  Otherwise it may not: stored flow rates of the
weights of the outlets, numbers of segments and ratios are the objects of the caller and change with them.
-/

noncomputable section

namespace Verif.Net

/-! ### Machines with the same behaviour -/

section Hom

variable {A A' F F' V B U W : Type*}

/-- `M'` behaves as `M` on the images of its arguments and formatted inputs. -/
structure Hom (M' : Machine A' F' V B U W) (M : Machine A F V B U W) (φ : A' → A) (ψ : F' → F) : Prop where
  hit : ∀ k a, M'.hit k a = M.hit (φ k) (φ a)
  near : ∀ k a, M'.near k a = M.near (φ k) (φ a)
  fmt : ∀ a, ψ (M'.fmt a) = M.fmt (φ a)
  inlet : ∀ f, M'.inlet f = M.inlet (ψ f)
  outlet : ∀ f, M'.outlet f = M.outlet (ψ f)
  bore : ∀ f v, M'.bore f v = M.bore (ψ f) v
  fluid : ∀ f v, M'.fluid f v = M.fluid (ψ f) v
  sum : ∀ v, M'.sum v = M.sum v
  inv : ∀ u, M'.inv u = M.inv u
  mix : ∀ f, M'.mix f = M.mix (ψ f)
  comb : ∀ w v, M'.comb w v = M.comb w v

def mapKey {X : Type*} (φ : A' → A) (s : Option (A' × X)) : Option (A × X) := s.map fun x => (φ x.1, x.2)

/-- Image of a state. -/
def St.map (φ : A' → A) (ψ : F' → F) (s : St A' F' V B U W) : St A F V B U W where
  f := s.f.map ψ
  sInlet := mapKey φ s.sInlet
  sOutlet := mapKey φ s.sOutlet
  sNetIn := mapKey φ s.sNetIn
  sNetOut := mapKey φ s.sNetOut
  sBore := mapKey φ s.sBore
  sFluid := mapKey φ s.sFluid
  sHeat := mapKey φ s.sHeat
  mixS := mapKey φ s.mixS

variable {M' : Machine A' F' V B U W} {M : Machine A F V B U W} {φ : A' → A} {ψ : F' → F}

theorem lookup_map {X : Type*} {hit' : A' → A' → Bool} {hit : A → A → Bool} (h : ∀ k a, hit' k a = hit (φ k) (φ a)) (s : Option (A' × X)) (a : A') :
    lookup hit (mapKey φ s) (φ a) = lookup hit' s a := by
  cases s with
  | none => rfl
  | some x => simp only [mapKey, Option.map_some, lookup, h]

variable (H : Hom M' M φ ψ)
include H

theorem callInlet_map (a : A') (s : St A' F' V B U W) : callInlet M (φ a) (s.map φ ψ) = ((callInlet M' a s).1, (callInlet M' a s).2.map φ ψ) := by
  unfold callInlet
  rw [show lookup M.hit (s.map φ ψ).sInlet (φ a) = lookup M'.hit s.sInlet a from lookup_map H.hit _ _]
  cases lookup M'.hit s.sInlet a with
  | some v => rfl
  | none =>
    dsimp only
    rw [H.inlet, H.fmt]
    simp only [St.map, mapKey, Option.map_some, H.fmt]

theorem callOutlet_map (a : A') (s : St A' F' V B U W) : callOutlet M (φ a) (s.map φ ψ) = ((callOutlet M' a s).1, (callOutlet M' a s).2.map φ ψ) := by
  unfold callOutlet
  rw [show lookup M.hit (s.map φ ψ).sOutlet (φ a) = lookup M'.hit s.sOutlet a from lookup_map H.hit _ _]
  cases lookup M'.hit s.sOutlet a with
  | some v => rfl
  | none =>
    dsimp only
    rw [H.outlet, H.fmt]
    simp only [St.map, mapKey, Option.map_some, H.fmt]

theorem map_setF (a : A') (s : St A' F' V B U W) : { s.map φ ψ with f := some (M.fmt (φ a)) } = St.map φ ψ { s with f := some (M'.fmt a) } := by
  simp only [St.map, Option.map_some, H.fmt]

theorem callBore_map (a : A') (s : St A' F' V B U W) : callBore M (φ a) (s.map φ ψ) = ((callBore M' a s).1, (callBore M' a s).2.map φ ψ) := by
  unfold callBore
  rw [show lookup M.hit (s.map φ ψ).sBore (φ a) = lookup M'.hit s.sBore a from lookup_map H.hit _ _]
  cases lookup M'.hit s.sBore a with
  | some v => rfl
  | none =>
    dsimp only
    have e := (congrArg (callInlet M (φ a)) (map_setF H a s)).trans (callInlet_map H a _)
    dsimp only at e
    rw [e]
    simp only [H.bore, H.fmt]
    rfl

theorem callFluid_map (a : A') (s : St A' F' V B U W) : callFluid M (φ a) (s.map φ ψ) = ((callFluid M' a s).1, (callFluid M' a s).2.map φ ψ) := by
  unfold callFluid
  rw [show lookup M.hit (s.map φ ψ).sFluid (φ a) = lookup M'.hit s.sFluid a from lookup_map H.hit _ _]
  cases lookup M'.hit s.sFluid a with
  | some v => rfl
  | none =>
    dsimp only
    have e := (congrArg (callInlet M (φ a)) (map_setF H a s)).trans (callInlet_map H a _)
    dsimp only at e
    rw [e]
    simp only [H.fluid, H.fmt]
    rfl

theorem callHeat_map (a : A') (s : St A' F' V B U W) : callHeat M (φ a) (s.map φ ψ) = ((callHeat M' a s).1, (callHeat M' a s).2.map φ ψ) := by
  unfold callHeat
  rw [show lookup M.hit (s.map φ ψ).sHeat (φ a) = lookup M'.hit s.sHeat a from lookup_map H.hit _ _]
  cases lookup M'.hit s.sHeat a with
  | some v => rfl
  | none =>
    dsimp only
    rw [callFluid_map H]
    simp only [H.sum]
    rfl

theorem callNetIn_map (a : A') (s : St A' F' V B U W) : callNetIn M (φ a) (s.map φ ψ) = ((callNetIn M' a s).1, (callNetIn M' a s).2.map φ ψ) := by
  unfold callNetIn
  rw [show lookup M.hit (s.map φ ψ).sNetIn (φ a) = lookup M'.hit s.sNetIn a from lookup_map H.hit _ _]
  cases lookup M'.hit s.sNetIn a with
  | some v => rfl
  | none =>
    dsimp only
    rw [callHeat_map H]
    simp only [H.inv]
    rfl

theorem callMix_map (a : A') (s : St A' F' V B U W) : callMix M (φ a) (s.map φ ψ) = ((callMix M' a s).1, (callMix M' a s).2.map φ ψ) := by
  unfold callMix
  rw [show lookup M.near (s.map φ ψ).mixS (φ a) = lookup M'.near s.mixS a from lookup_map H.near _ _]
  cases lookup M'.near s.mixS a with
  | some v => rfl
  | none =>
    dsimp only
    have e : (s.map φ ψ).f = s.f.map ψ := rfl
    rw [e]
    cases hf : s.f with
    | none => rfl
    | some f => simp only [Option.map_some, H.mix]; simp only [St.map, mapKey, Option.map_some, hf]

theorem callNetOut_map (a : A') (s : St A' F' V B U W) : callNetOut M (φ a) (s.map φ ψ) = ((callNetOut M' a s).1, (callNetOut M' a s).2.map φ ψ) := by
  unfold callNetOut
  rw [show lookup M.hit (s.map φ ψ).sNetOut (φ a) = lookup M'.hit s.sNetOut a from lookup_map H.hit _ _]
  cases lookup M'.hit s.sNetOut a with
  | some v => rfl
  | none =>
    dsimp only
    rw [callOutlet_map H]
    dsimp only
    rw [callMix_map H]
    dsimp only
    cases (callMix M' a (callOutlet M' a s).2).1 with
    | none => rfl
    | some w => simp only [H.comb]; rfl

end Hom

section Keys

variable {A F V B U W : Type*} {M : Machine A F V B U W} {P : A → Prop} {Q : F → Prop}

/-- All the arguments and formatted inputs in the state are in `P` and `Q`. -/
structure Keys (P : A → Prop) (Q : F → Prop) (s : St A F V B U W) : Prop where
  f : ∀ f, s.f = some f → Q f
  inlet : ∀ x, s.sInlet = some x → P x.1
  outlet : ∀ x, s.sOutlet = some x → P x.1
  netIn : ∀ x, s.sNetIn = some x → P x.1
  netOut : ∀ x, s.sNetOut = some x → P x.1
  bore : ∀ x, s.sBore = some x → P x.1
  fluid : ∀ x, s.sFluid = some x → P x.1
  heat : ∀ x, s.sHeat = some x → P x.1
  mix : ∀ x, s.mixS = some x → P x.1

variable {a : A} (ha : P a) (hf : Q (M.fmt a))
include ha hf

omit hf in
theorem keys_new {X : Type*} (v : X) : ∀ x : A × X, some (a, v) = some x → P x.1 := by
  rintro x h; cases h; exact ha

omit ha in
theorem keys_fmt : ∀ f, some (M.fmt a) = some f → Q f := by
  rintro f h; cases h; exact hf

theorem callInlet_keys {s : St A F V B U W} (hs : Keys P Q s) : Keys P Q (callInlet M a s).2 := by
  unfold callInlet
  cases lookup M.hit s.sInlet a with
  | some v => exact hs
  | none => exact { hs with f := keys_fmt hf, inlet := keys_new ha _ }

theorem callOutlet_keys {s : St A F V B U W} (hs : Keys P Q s) : Keys P Q (callOutlet M a s).2 := by
  unfold callOutlet
  cases lookup M.hit s.sOutlet a with
  | some v => exact hs
  | none => exact { hs with f := keys_fmt hf, outlet := keys_new ha _ }

theorem callBore_keys {s : St A F V B U W} (hs : Keys P Q s) : Keys P Q (callBore M a s).2 := by
  unfold callBore
  cases lookup M.hit s.sBore a with
  | some v => exact hs
  | none =>
    have h := callInlet_keys ha hf (s := { s with f := some (M.fmt a) }) { hs with f := keys_fmt hf }
    exact { h with bore := keys_new ha _ }

theorem callFluid_keys {s : St A F V B U W} (hs : Keys P Q s) : Keys P Q (callFluid M a s).2 := by
  unfold callFluid
  cases lookup M.hit s.sFluid a with
  | some v => exact hs
  | none =>
    have h := callInlet_keys ha hf (s := { s with f := some (M.fmt a) }) { hs with f := keys_fmt hf }
    exact { h with fluid := keys_new ha _ }

theorem callHeat_keys {s : St A F V B U W} (hs : Keys P Q s) : Keys P Q (callHeat M a s).2 := by
  unfold callHeat
  cases lookup M.hit s.sHeat a with
  | some v => exact hs
  | none => exact { callFluid_keys ha hf hs with heat := keys_new ha _ }

theorem callNetIn_keys {s : St A F V B U W} (hs : Keys P Q s) : Keys P Q (callNetIn M a s).2 := by
  unfold callNetIn
  cases lookup M.hit s.sNetIn a with
  | some v => exact hs
  | none => exact { callHeat_keys ha hf hs with netIn := keys_new ha _ }

omit hf in
theorem callMix_keys {s : St A F V B U W} (hs : Keys P Q s) : Keys P Q (callMix M a s).2 := by
  unfold callMix
  cases lookup M.near s.mixS a with
  | some v => exact hs
  | none =>
    dsimp only
    cases hsf : s.f with
    | none => exact hs
    | some f => exact { hs with f := fun g hg => hs.f g (hsf.trans hg), mix := keys_new ha _ }

theorem callNetOut_keys {s : St A F V B U W} (hs : Keys P Q s) : Keys P Q (callNetOut M a s).2 := by
  unfold callNetOut
  cases lookup M.hit s.sNetOut a with
  | some v => exact hs
  | none =>
    dsimp only
    have h := callMix_keys (M := M) ha (callOutlet_keys ha hf hs)
    cases (callMix M a (callOutlet M a s).2).1 with
    | none => exact h
    | some w => exact { h with netOut := keys_new ha _ }

omit ha hf in
theorem step_keys {s : St A F V B U W} (hs : Keys P Q s) (c : Call A) (hc : P c.arg) (hq : Q (M.fmt c.arg)) : Keys P Q (step M s c) := by
  cases c with
  | inlet a => exact callInlet_keys hc hq hs
  | outlet a => exact callOutlet_keys hc hq hs
  | netIn a => exact callNetIn_keys hc hq hs
  | netOut a => exact callNetOut_keys hc hq hs
  | bore a => exact callBore_keys hc hq hs
  | fluid a => exact callFluid_keys hc hq hs
  | heat a => exact callHeat_keys hc hq hs

omit ha hf in
theorem Keys.mono {P' : A → Prop} {Q' : F → Prop} {s : St A F V B U W} (hs : Keys P Q s) (hP : ∀ a, P a → P' a) (hQ : ∀ f, Q f → Q' f) : Keys P' Q' s :=
  ⟨fun f h => hQ f (hs.f f h), fun x h => hP _ (hs.inlet x h), fun x h => hP _ (hs.outlet x h), fun x h => hP _ (hs.netIn x h), fun x h => hP _ (hs.netOut x h),
    fun x h => hP _ (hs.bore x h), fun x h => hP _ (hs.fluid x h), fun x h => hP _ (hs.heat x h), fun x h => hP _ (hs.mix x h)⟩

omit ha hf in
theorem mapKey_congr {A' X : Type*} {φ φ' : A → A'} (hφ : ∀ a, P a → φ a = φ' a) (o : Option (A × X)) (h : ∀ x, o = some x → P x.1) : mapKey φ o = mapKey φ' o := by
  cases o with
  | none => rfl
  | some x =>
    have e := hφ x.1 (h x rfl)
    simp only [mapKey, Option.map_some, e]

omit ha hf in
theorem map_congr {A' F' : Type*} {φ φ' : A → A'} {ψ ψ' : F → F'} {s : St A F V B U W} (hs : Keys P Q s) (hφ : ∀ a, P a → φ a = φ' a) (hψ : ∀ f, Q f → ψ f = ψ' f) :
    s.map φ ψ = s.map φ' ψ' := by
  have kf : s.f.map ψ = s.f.map ψ' := by
    cases h : s.f with
    | none => rfl
    | some f => simp only [Option.map_some, hψ _ (hs.f f h)]
  simp only [St.map, kf, mapKey_congr hφ _ hs.inlet, mapKey_congr hφ _ hs.outlet, mapKey_congr hφ _ hs.netIn, mapKey_congr hφ _ hs.netOut, mapKey_congr hφ _ hs.bore,
    mapKey_congr hφ _ hs.fluid, mapKey_congr hφ _ hs.heat, mapKey_congr hφ _ hs.mix]

end Keys

namespace Alias

variable {V B U : Type} {t : Topology} {C : Comp V B U}

/-! ### Programs that modify no object that they passed before -/

/-- The objects of a call. -/
def Args.Uses (a : Args) : Op → Prop
  | .call _ => False
  | .setArr r _ => a.m = .ref r ∨ a.cp = .ref r ∨ a.q = .array r
  | .setSegs r _ => a.n = .ref r
  | .setRats r _ => a.q = .list r

/-- No operation modifies an object that an earlier call was given. -/
def Safe (ops : List Op) : Prop := ops.Pairwise fun o o' => ∀ c, o = .call c → ¬ c.arg.Uses o'

/-- The calls of a program, with their arguments by value at the time of the call. -/
def values (h : Heap) : List Op → List (Call Val)
  | [] => []
  | .call c :: ops => mapCall (Args.val h) c :: values h ops
  | .setArr r l :: ops => values { h with arr := Function.update h.arr r l } ops
  | .setSegs r l :: ops => values { h with segs := Function.update h.segs r l } ops
  | .setRats r l :: ops => values { h with rats := Function.update h.rats r l } ops

/-- The objects of the caller after a program. -/
def final (h : Heap) : List Op → Heap
  | [] => h
  | .call _ :: ops => final h ops
  | .setArr r l :: ops => final { h with arr := Function.update h.arr r l } ops
  | .setSegs r l :: ops => final { h with segs := Function.update h.segs r l } ops
  | .setRats r l :: ops => final { h with rats := Function.update h.rats r l } ops

theorem val_after {h : Heap} {a : Args} {o : Op} (hu : ¬ a.Uses o) : a.val (h.after o) = a.val h := by
  obtain ⟨m, cp, n, q⟩ := a
  cases o with
  | call c => rfl
  | setArr r l =>
    simp only [Args.Uses, not_or] at hu
    obtain ⟨h1, h2, h3⟩ := hu
    have e1 : m.val (h.after (.setArr r l)) = m.val h := by
      cases m with
      | num x => rfl
      | ref k => exact Function.update_of_ne (fun e => h1 (by rw [e])) _ _
    have e2 : cp.val (h.after (.setArr r l)) = cp.val h := by
      cases cp with
      | num x => rfl
      | ref k => exact Function.update_of_ne (fun e => h2 (by rw [e])) _ _
    have e3 : q.val (h.after (.setArr r l)) = q.val h := by
      cases q with
      | none => rfl
      | list k => rfl
      | array k => exact congrArg RatVal.array (Function.update_of_ne (fun e => h3 (by rw [e])) _ _)
    simp only [Args.val, e1, e2, e3]
    cases n <;> rfl
  | setSegs r l =>
    have e : n.val (h.after (.setSegs r l)) = n.val h := by
      cases n with
      | num x => rfl
      | ref k => exact congrArg SegVal.list (Function.update_of_ne (fun e => hu (by rw [e]; rfl)) _ _)
    simp only [Args.val, e]
    cases m <;> cases cp <;> cases q <;> rfl
  | setRats r l =>
    have e : q.val (h.after (.setRats r l)) = q.val h := by
      cases q with
      | none => rfl
      | array k => rfl
      | list k => exact congrArg RatVal.list (Function.update_of_ne (fun e => hu (by rw [e]; rfl)) _ _)
    simp only [Args.val, e]
    cases m <;> cases cp <;> cases n <;> rfl

theorem format_mIn {m cp : List ℝ} {f : Formatted} (h : format t m cp = .ok f) (hm : ∀ x, m ≠ [x]) : f.mIn = m := by
  have hfl : formatFlow t.nInlets m = .ok m ∨ formatFlow t.nInlets m = .error .value := by
    unfold formatFlow
    split
    · exact absurd rfl (hm _)
    · split_ifs
      · left; rfl
      · right; rfl
  unfold format at h
  rcases hfl with e | e <;> rw [e] at h
  · dsimp only at h
    split_ifs at h <;> cases hc : formatCp t.nInlets cp <;> rw [hc] at h <;> cases h <;> rfl
  · cases h

theorem format_same_flow {m c c' : List ℝ} {f f' : Formatted} (h : format t m c = .ok f) (h' : format t m c' = .ok f') : f.mIn = f'.mIn ∧ f.rev = f'.rev := by
  unfold format at h h'
  cases hfl : formatFlow t.nInlets m with
  | error e => rw [hfl] at h; cases h
  | ok x =>
    rw [hfl] at h h'
    dsimp only at h h'
    by_cases hpos : ∀ x ∈ m, 0 ≤ x
    · rw [if_pos hpos] at h h'
      cases hk : formatCp t.nInlets c <;> cases ha : formatCp t.nInlets c' <;> rw [hk] at h <;> rw [ha] at h' <;> cases h <;> cases h'
      exact ⟨rfl, rfl⟩
    · rw [if_neg hpos] at h h'
      by_cases hneg : ∀ x ∈ m, x ≤ 0
      · rw [if_pos hneg] at h h'
        cases hk : formatCp t.nInlets c <;> cases ha : formatCp t.nInlets c' <;> rw [hk] at h <;> rw [ha] at h' <;> cases h <;> cases h'
        exact ⟨rfl, rfl⟩
      · rw [if_neg hneg] at h; cases h

theorem format_flow {v : Val} {i : Inputs} (h : v.format t = some i) : ∃ f, Net.format t v.m v.cp = .ok f ∧ i.flow = f := by
  unfold Val.format formatInputs at h
  cases hf : Net.format t v.m v.cp with
  | error e => rw [hf] at h; cases h
  | ok f =>
    rw [hf] at h
    dsimp only at h
    cases hn : formatSegments t.n v.n.toList with
    | error e => rw [hn] at h; cases h
    | ok s =>
      rw [hn] at h
      dsimp only at h
      cases hq : formatRatios t.n v.q.toArg with
      | error e => rw [hq] at h; cases h
      | ok q => rw [hq] at h; cases h; exact ⟨f, rfl, rfl⟩

theorem live_fmt (h : Heap) (a : Args) : live h ((a.val h).format t, a) = (a.val h).format t := by
  unfold live
  dsimp only
  split
  · rfl
  · rename_i hl
    unfold Val.format formatInputs
    have e : (a.val h).m = a.m.val h := rfl
    rw [e]
    cases hf : Net.format t (a.m.val h) (a.val h).cp with
    | error e => rfl
    | ok f =>
      have hm := format_mIn hf (fun x hx => hl x hx)
      dsimp only
      cases formatSegments t.n (a.val h).n.toList with
      | error e => rfl
      | ok s =>
        cases formatRatios t.n (a.val h).q.toArg with
        | error e => rfl
        | ok q =>
          simp only [Except.toOption, Option.map_some]
          rw [← hm]

/-- At any time, the object behaves as one with arguments by value. -/
theorem alias_hom (h : Heap) : Hom (aliasMachine t C h) (valueMachine t C) (seen h) (live h) where
  hit _ _ := rfl
  near _ _ := rfl
  fmt a := live_fmt h a.1
  inlet _ := rfl
  outlet _ := rfl
  bore _ _ := rfl
  fluid _ _ := rfl
  sum _ := rfl
  inv _ := rfl
  mix _ := rfl
  comb _ _ := rfl

/-- Arguments by value with their product. -/
def withProduct (t : Topology) (v : Val) : Val × List ℝ := (v, mcp t.nInlets (v.m, v.cp))

theorem seen_pass (h : Heap) (a : Args) : seen h (pass t h a) = withProduct t (a.val h) := rfl

theorem step_seen (h : Heap) (s : Obj V B U) (c : Call Args) :
    (step (aliasMachine t C h) s (mapCall (pass t h) c)).map (seen h) (live h) = step (valueMachine t C) (s.map (seen h) (live h)) (mapCall (withProduct t) (mapCall (Args.val h) c)) := by
  cases c with
  | inlet a => exact (congrArg Prod.snd (callInlet_map (alias_hom h) (pass t h a) s)).symm
  | outlet a => exact (congrArg Prod.snd (callOutlet_map (alias_hom h) (pass t h a) s)).symm
  | netIn a => exact (congrArg Prod.snd (callNetIn_map (alias_hom h) (pass t h a) s)).symm
  | netOut a => exact (congrArg Prod.snd (callNetOut_map (alias_hom h) (pass t h a) s)).symm
  | bore a => exact (congrArg Prod.snd (callBore_map (alias_hom h) (pass t h a) s)).symm
  | fluid a => exact (congrArg Prod.snd (callFluid_map (alias_hom h) (pass t h a) s)).symm
  | heat a => exact (congrArg Prod.snd (callHeat_map (alias_hom h) (pass t h a) s)).symm

theorem arg_map {A A' : Type} (g : A → A') (c : Call A) : (mapCall g c).arg = g c.arg := by cases c <;> rfl

theorem prog_snoc (h : Heap) (ops : List Op) (o : Op) : prog t C h (ops ++ [o]) = exec t C (prog t C h ops) o := by simp [prog]

theorem final_snoc (h : Heap) (ops : List Op) (o : Op) : final h (ops ++ [o]) = (final h ops).after o := by
  induction ops generalizing h with
  | nil => cases o <;> rfl
  | cons a ops ih => cases a <;> exact ih _

theorem values_snoc (h : Heap) (ops : List Op) (o : Op) : values h (ops ++ [o]) = values h ops ++ values (final h ops) [o] := by
  induction ops generalizing h with
  | nil => rfl
  | cons a ops ih => cases a <;> simp only [List.cons_append, values, final, ih]

/-- The object of a safe program, seen by value, is that of the calls by value. -/
theorem prog_values (h : Heap) (ops : List Op) (hs : Safe ops) :
    (prog t C h ops).1 = final h ops ∧
    (prog t C h ops).2.map (seen (final h ops)) (live (final h ops)) = run (valueMachine t C) ((values h ops).map (mapCall (withProduct t))) ∧
    Keys (fun k => ∃ c, Op.call c ∈ ops ∧ k.1 = c.arg) (fun f => ∃ c, Op.call c ∈ ops ∧ f.2 = c.arg) (prog t C h ops).2 := by
  induction ops using List.reverseRecOn with
  | nil => exact ⟨rfl, rfl, by constructor <;> (intro x hx; cases hx)⟩
  | append_singleton ops o ih =>
    unfold Safe at hs
    rw [List.pairwise_append] at hs
    obtain ⟨i1, i2, i3⟩ := ih hs.1
    have i3' : Keys (fun k => ∃ c, Op.call c ∈ ops ++ [o] ∧ k.1 = c.arg) (fun f => ∃ c, Op.call c ∈ ops ++ [o] ∧ f.2 = c.arg) (prog t C h ops).2 :=
      i3.mono (fun k ⟨c, hc, e⟩ => ⟨c, by simp [hc], e⟩) (fun k ⟨c, hc, e⟩ => ⟨c, by simp [hc], e⟩)
    rw [prog_snoc, final_snoc, values_snoc, List.map_append]
    have hrun : run (valueMachine t C) ((values h ops).map (mapCall (withProduct t)) ++ (values (final h ops) [o]).map (mapCall (withProduct t)))
        = ((values (final h ops) [o]).map (mapCall (withProduct t))).foldl (step (valueMachine t C)) (run (valueMachine t C) ((values h ops).map (mapCall (withProduct t)))) := by
      simp only [run, List.foldl_append]
    rw [hrun, ← i2]
    have hother : (∀ c, o ≠ .call c) → exec t C (prog t C h ops) o = ((prog t C h ops).1.after o, (prog t C h ops).2) ∧ values (final h ops) [o] = [] := by
      intro ho
      cases o with
      | call c => exact absurd rfl (ho c)
      | setArr r l => exact ⟨rfl, rfl⟩
      | setSegs r l => exact ⟨rfl, rfl⟩
      | setRats r l => exact ⟨rfl, rfl⟩
    by_cases ho : ∃ c, o = .call c
    · obtain ⟨c, rfl⟩ := ho
      have e : exec t C (prog t C h ops) (.call c) = ((prog t C h ops).1, step (aliasMachine t C (final h ops)) (prog t C h ops).2 (mapCall (pass t (final h ops)) c)) := by
        simp only [exec, i1]
      rw [e]
      refine ⟨i1, step_seen _ _ _, step_keys i3' _ ?_ ?_⟩
      · rw [arg_map]; exact ⟨c, by simp, rfl⟩
      · rw [arg_map]; exact ⟨c, by simp, rfl⟩
    · have ho' : ∀ c, o ≠ .call c := fun c e => ho ⟨c, e⟩
      obtain ⟨e1, e2⟩ := hother ho'
      rw [e1, e2]
      have hval : ∀ a : Args, (∃ c, Op.call c ∈ ops ∧ a = c.arg) → a.val ((final h ops).after o) = a.val (final h ops) := by
        rintro a ⟨c, hc, rfl⟩
        exact val_after (hs.2.2 _ hc o (by simp) c rfl)
      refine ⟨by rw [i1], ?_, i3'⟩
      refine map_congr i3 (fun k hk => ?_) (fun f hf => ?_)
      · simp only [seen, hval k.1 hk]
      · have : f.2.m.val ((final h ops).after o) = f.2.m.val (final h ops) := congrArg Val.m (hval f.2 hf)
        simp only [live, this]

/-- **C114** (refinement).  Whatever the methods compute: a program that modifies no object that it passed before gets from each method what it would get from an object that was given
copies of the arguments. -/
theorem by_value_partial (h : Heap) (ops : List Op) (hs : Safe ops) (a : Args) :
    let σ := prog t C h ops
    let M := aliasMachine t C σ.1
    let s := run (valueMachine t C) ((values h ops).map (mapCall (withProduct t)))
    let v := withProduct t (a.val (final h ops))
    (callInlet M (pass t σ.1 a) σ.2).1 = (callInlet (valueMachine t C) v s).1 ∧
    (callOutlet M (pass t σ.1 a) σ.2).1 = (callOutlet (valueMachine t C) v s).1 ∧
    (callNetIn M (pass t σ.1 a) σ.2).1 = (callNetIn (valueMachine t C) v s).1 ∧
    (callNetOut M (pass t σ.1 a) σ.2).1 = (callNetOut (valueMachine t C) v s).1 ∧
    (callBore M (pass t σ.1 a) σ.2).1 = (callBore (valueMachine t C) v s).1 ∧
    (callFluid M (pass t σ.1 a) σ.2).1 = (callFluid (valueMachine t C) v s).1 ∧
    (callHeat M (pass t σ.1 a) σ.2).1 = (callHeat (valueMachine t C) v s).1 := by
  intro σ M s v
  obtain ⟨i1, i2, -⟩ := prog_values (t := t) (C := C) h ops hs
  have hv : v = seen σ.1 (pass t σ.1 a) := by rw [seen_pass, show σ.1 = final h ops from i1]
  have hst : s = σ.2.map (seen σ.1) (live σ.1) := by rw [show σ.1 = final h ops from i1]; exact i2.symm
  rw [hv, hst]
  have H : Hom M (valueMachine t C) (seen σ.1) (live σ.1) := alias_hom σ.1
  exact ⟨(congrArg Prod.fst (callInlet_map H _ _)).symm, (congrArg Prod.fst (callOutlet_map H _ _)).symm, (congrArg Prod.fst (callNetIn_map H _ _)).symm,
    (congrArg Prod.fst (callNetOut_map H _ _)).symm, (congrArg Prod.fst (callBore_map H _ _)).symm, (congrArg Prod.fst (callFluid_map H _ _)).symm,
    (congrArg Prod.fst (callHeat_map H _ _)).symm⟩

/-- Specification of the arguments that a call cannot tell from stored ones: the products of flow rate and heat capacity and the ratios within one part in a million, the same numbers of
segments.  `a` is the new argument. -/
structure Confused (k : ℕ) (old a : Val) : Prop where
  product : ∀ (i : ℕ) (x y u v : ℝ), i < k → perCircuit a.m i = some x → perCircuit a.cp i = some y → perCircuit old.m i = some u → perCircuit old.cp i = some v →
    |x * y - u * v| < |u * v| / 1000000
  segments : a.n = old.n
  ratios : (a.q = .none ∧ old.q = .none) ∨ ∃ l s, a.q = .list l ∧ old.q = .list s ∧ l.length ≤ s.length ∧
    ∀ (i : ℕ) (r r' : List ℝ), l[i]? = some r → s[i]? = some r' → r.length = r'.length ∧ ∀ (j : ℕ) (x y : ℝ), r[j]? = some x → r'[j]? = some y → |x - y| < |y| / 1000000

theorem ratios_confused {s a : RatVal} (h : ratiosNear s a = true) : (a = .none ∧ s = .none) ∨ ∃ l s', a = .list l ∧ s = .list s' ∧ l.length ≤ s'.length ∧
    ∀ (i : ℕ) (r r' : List ℝ), l[i]? = some r → s'[i]? = some r' → r.length = r'.length ∧ ∀ (j : ℕ) (x y : ℝ), r[j]? = some x → r'[j]? = some y → |x - y| < |y| / 1000000 := by
  cases s <;> cases a <;> simp only [ratiosNear, Bool.false_eq_true] at h
  · exact Or.inl ⟨rfl, rfl⟩
  · rename_i s l
    right
    simp only [Bool.and_eq_true, decide_eq_true_eq, List.all_eq_true] at h
    refine ⟨l, s, rfl, rfl, h.1, fun i r r' hr hr' => ?_⟩
    have hm : (r.length == r'.length && closeTo r r') ∈ List.zipWith (fun x y => x.length == y.length && closeTo x y) l s :=
      List.mem_iff_getElem?.mpr ⟨i, by rw [List.getElem?_zipWith]; simp [hr, hr']⟩
    have := h.2 _ hm
    simp only [id, Bool.and_eq_true, beq_iff_eq] at this
    refine ⟨this.1, fun j x y hx hy => ?_⟩
    rw [List.getElem?_eq_some_iff] at hx hy
    obtain ⟨hx, rfl⟩ := hx
    obtain ⟨hy, rfl⟩ := hy
    exact closeTo_get this.2 j hx hy

theorem closeTo_product {k : ℕ} {a old : Val} (ha : (a.m.length = k ∨ a.m.length = 1) ∧ (a.cp.length = k ∨ a.cp.length = 1))
    (ho : (old.m.length = k ∨ old.m.length = 1) ∧ (old.cp.length = k ∨ old.cp.length = 1)) (h : closeTo (mcp k (a.m, a.cp)) (mcp k (old.m, old.cp)) = true)
    (i : ℕ) (x y u v : ℝ) (hi : i < k) (hx : perCircuit a.m i = some x) (hy : perCircuit a.cp i = some y) (hu : perCircuit old.m i = some u) (hv : perCircuit old.cp i = some v) :
    |x * y - u * v| < |u * v| / 1000000 := by
  obtain ⟨l1, g1⟩ := bcast_get ho.1
  obtain ⟨l2, g2⟩ := bcast_get ho.2
  obtain ⟨l3, g3⟩ := bcast_get ha.1
  obtain ⟨l4, g4⟩ := bcast_get ha.2
  rw [← g1 i hi, List.getElem?_eq_some_iff] at hu
  rw [← g2 i hi, List.getElem?_eq_some_iff] at hv
  rw [← g3 i hi, List.getElem?_eq_some_iff] at hx
  rw [← g4 i hi, List.getElem?_eq_some_iff] at hy
  obtain ⟨ix, rfl⟩ := hx
  obtain ⟨iy, rfl⟩ := hy
  obtain ⟨iu, rfl⟩ := hu
  obtain ⟨iv, rfl⟩ := hv
  unfold mcp at h
  have := closeTo_get h i (by simp; omega) (by simp; omega)
  simpa using this

/-- **C114** (the part that holds).  `S` holds the arguments of the program, by value: flow rates and heat capacities for each circuit or once for all, and no two arguments that the object
confuses.  A program that modifies no object that it passed before gets from six of the methods what they compute from the current content of their arguments; also from the network
outlet, if it never asks for the outlet temperatures of the boreholes, and flow rates in `S` are the same or differ by one part in a million. -/
theorem current_values_partial (h : Heap) (ops : List Op) (hs : Safe ops) (S : Val → Prop)
    (hlen : ∀ a, S a → (a.m.length = t.nInlets ∨ a.m.length = 1) ∧ (a.cp.length = t.nInlets ∨ a.cp.length = 1))
    (hsep : ∀ k a, S k → S a → Confused t.nInlets k a → k = a) (hops : ∀ c ∈ values h ops, S c.arg) (a : Args) (ha : S (a.val (final h ops))) :
    let σ := prog t C h ops
    let M := aliasMachine t C σ.1
    let now := (a.val (final h ops)).format t
    (callInlet M (pass t σ.1 a) σ.2).1 = now.bind C.inlet ∧
    (callOutlet M (pass t σ.1 a) σ.2).1 = now.bind C.outlet ∧
    (callBore M (pass t σ.1 a) σ.2).1 = now.bind (fun i => (C.inlet i).map (C.bore i)) ∧
    (callFluid M (pass t σ.1 a) σ.2).1 = now.bind (fun i => (C.inlet i).map (C.fluid i)) ∧
    (callHeat M (pass t σ.1 a) σ.2).1 = now.bind (fun i => (C.inlet i).map fun v => C.sum (C.fluid i v)) ∧
    (callNetIn M (pass t σ.1 a) σ.2).1 = now.bind (fun i => (C.inlet i).bind fun v => C.inv (C.sum (C.fluid i v))) ∧
    ((∀ b, Call.outlet b ∉ values h ops) → (∀ b, S b → ∃ i, b.format t = some i) →
      (∀ k b, S k → S b → (∀ (i : ℕ) (x u : ℝ), i < t.nInlets → perCircuit b.m i = some x → perCircuit k.m i = some u → |x - u| < |u| / 1000000) → k.m = b.m) →
      ∃ i, now = some i ∧ (callNetOut M (pass t σ.1 a) σ.2).1 = some ((C.outlet i).map (C.comb (mixing (flowOutlets t i.flow) i.flow.mIn)))) := by
  intro σ M now
  obtain ⟨e1, e2, e3, e4, e5, e6, e7⟩ := by_value_partial (t := t) (C := C) h ops hs a
  obtain ⟨P, hP⟩ : ∃ P : Val × List ℝ → Prop, P = fun x => ∃ v, S v ∧ x = withProduct t v := ⟨_, rfl⟩
  have hS : ∀ k a, P k → P a → (valueMachine t C).hit k a = true → k = a := by
    intro k a hk ha hh
    rw [hP] at hk ha
    obtain ⟨k, hk, rfl⟩ := hk
    obtain ⟨a, ha, rfl⟩ := ha
    simp only [valueMachine, withProduct, Bool.and_eq_true, decide_eq_true_eq] at hh
    rw [hsep k a hk ha ⟨closeTo_product (hlen a ha) (hlen k hk) hh.1.1, hh.1.2, ratios_confused hh.2⟩]
  have hh : ∀ c ∈ (values h ops).map (mapCall (withProduct t)), P c.arg := by
    intro c hc
    obtain ⟨d, hd, rfl⟩ := List.mem_map.mp hc
    rw [arg_map, hP]
    exact ⟨_, hops d hd, rfl⟩
  have hv : P (withProduct t (a.val (final h ops))) := by rw [hP]; exact ⟨_, ha, rfl⟩
  have hi := run_inv hS _ hh
  rw [e1, e2, e3, e4, e5, e6, e7, (callInlet_inv hS hv hi).1, (callOutlet_inv hS hv hi).1, (callNetIn_inv hS hv hi).1, (callBore_inv hS hv hi).1, (callFluid_inv hS hv hi).1,
    (callHeat_inv hS hv hi).1]
  have hfmt : (valueMachine t C).fmt (withProduct t (a.val (final h ops))) = now := rfl
  unfold pureNetIn pureHeat pureBore pureFluid
  rw [hfmt]
  clear_value now
  refine ⟨rfl, rfl, ?_, ?_, ?_, ?_, ?_⟩
  · cases now <;> rfl
  · cases now <;> rfl
  · cases now with
    | none => rfl
    | some i => simp only [valueMachine, Option.bind_some, Option.map_map]; rfl
  · cases now with
    | none => rfl
    | some i =>
      simp only [valueMachine, Option.bind_some]
      cases C.inlet i <;> rfl
  · intro hno hok hflow
    have hN : ∀ k a, P k → P a → (valueMachine t C).near k a = true → (valueMachine t C).mix ((valueMachine t C).fmt k) = (valueMachine t C).mix ((valueMachine t C).fmt a) := by
      intro k a hk ha hnear
      rw [hP] at hk ha
      obtain ⟨k, hk, rfl⟩ := hk
      obtain ⟨a, ha, rfl⟩ := ha
      have he : k.m = a.m := by
        refine hflow k a hk ha fun i x u hi hx hu => ?_
        obtain ⟨l1, g1⟩ := bcast_get (hlen k hk).1
        obtain ⟨l3, g3⟩ := bcast_get (hlen a ha).1
        rw [← g1 i hi, List.getElem?_eq_some_iff] at hu
        rw [← g3 i hi, List.getElem?_eq_some_iff] at hx
        obtain ⟨ix, rfl⟩ := hx
        obtain ⟨iu, rfl⟩ := hu
        have hm : closeTo (bcast t.nInlets a.m) (bcast t.nInlets k.m) = true := hnear
        exact closeTo_get hm i (by omega) (by omega)
      obtain ⟨ik, hik⟩ := hok k hk
      obtain ⟨ia, hia⟩ := hok a ha
      have hflows : ik.flow.mIn = ia.flow.mIn ∧ ik.flow.rev = ia.flow.rev := by
        obtain ⟨fk, hfk, ek⟩ := format_flow hik
        obtain ⟨fa, hfa, ea⟩ := format_flow hia
        rw [ek, ea]
        rw [he] at hfk
        exact format_same_flow hfk hfa
      show (match k.format t with | some f => mixing (flowOutlets t f.flow) f.flow.mIn | none => fun _ => 0) =
        (match a.format t with | some f => mixing (flowOutlets t f.flow) f.flow.mIn | none => fun _ => 0)
      rw [hik, hia]
      simp only [flowOutlets, hflows.1, hflows.2]
    have hno' : NoOutlet ((values h ops).map (mapCall (withProduct t))) := by
      intro b hb
      obtain ⟨d, hd, e⟩ := List.mem_map.mp hb
      cases d <;> cases e
      exact hno _ hd
    obtain ⟨i, hi'⟩ := hok _ ha
    have hnow : now = some i := hfmt.symm.trans hi'
    refine ⟨i, hnow, ?_⟩
    rw [(callNetOut_inv2 hS hN hv (run_inv2 hS hN _ hh hno')).1]
    unfold pureNetOut
    rw [hfmt, hnow]
    rfl

/-- Two calls with arrays that are filled before they are passed, and another array for the second operating point. -/
example (h : Heap) (ht : t.nInlets = 2) : ∃ σ, σ = prog t C h [.setArr 0 [1, 3], .call (.netOut ⟨.ref 0, .num 1, .num 1, .none⟩), .setArr 1 [2, 2], .call (.heat ⟨.ref 1, .num 1, .num 1, .none⟩)] ∧
    (callInlet (aliasMachine t C σ.1) (pass t σ.1 ⟨.ref 1, .num 1, .num 1, .none⟩) σ.2).1 = ((⟨[2, 2], [1], .num 1, .none⟩ : Val).format t).bind C.inlet := by
  refine ⟨_, rfl, (current_values_partial h _ ?_ (fun a => a = ⟨[1, 3], [1], .num 1, .none⟩ ∨ a = ⟨[2, 2], [1], .num 1, .none⟩) ?_ ?_ ?_ ⟨.ref 1, .num 1, .num 1, .none⟩ ?_).1.trans ?_⟩
  · simp [Safe, Args.Uses, Call.arg]
  · rintro a (rfl | rfl) <;> simp [ht]
  · rintro k a (rfl | rfl) (rfl | rfl) hc
    · rfl
    · have := hc.product 0 2 1 1 1 (by omega) rfl rfl rfl rfl; norm_num at this
    · have := hc.product 0 1 1 2 1 (by omega) rfl rfl rfl rfl; norm_num at this
    · rfl
  · simp [values, mapCall, Call.arg, Args.val, Flow.val, Seg.val, Rat.val]
  · simp [final, Args.val, Flow.val, Seg.val, Rat.val]
  · simp [final, Args.val, Flow.val, Seg.val, Rat.val]

/-! ### Objects that are modified after they were passed -/

theorem closeTo_self {l : List ℝ} (hl : ∀ x ∈ l, x ≠ 0) : closeTo l l = true := by
  induction l with
  | nil => rfl
  | cons x l ih =>
    have hx : 0 < |x| := abs_pos.mpr (hl x List.mem_cons_self)
    have := ih fun y hy => hl y (List.mem_cons_of_mem _ hy)
    unfold closeTo at this ⊢
    rw [List.zipWith_cons_cons, List.all_cons, this, Bool.and_true]
    simp only [sub_self, abs_zero, id, decide_eq_true_eq]
    positivity

theorem bcast_ne {k : ℕ} {l : List ℝ} (hl : ∀ x ∈ l, x ≠ 0) : ∀ x ∈ bcast k l, x ≠ 0 := by
  unfold bcast
  split
  · intro x hx
    rw [(List.mem_replicate.mp hx).2]
    exact hl _ List.mem_cons_self
  · exact hl

theorem mcp_ne {k : ℕ} {m c : List ℝ} (hm : ∀ x ∈ m, x ≠ 0) (hc : ∀ x ∈ c, x ≠ 0) : ∀ x ∈ mcp k (m, c), x ≠ 0 := by
  intro x hx
  unfold mcp at hx
  rw [← List.map_uncurry_zip_eq_zipWith] at hx
  obtain ⟨⟨u, v⟩, hp, rfl⟩ := List.mem_map.mp hx
  exact mul_ne_zero (bcast_ne hm u (List.of_mem_zip hp).1) (bcast_ne hc v (List.of_mem_zip hp).2)

theorem ratiosNear_self {l : List (List ℝ)} (hl : ∀ v ∈ l, ∀ x ∈ v, x ≠ 0) : ratiosNear (.list l) (.list l) = true := by
  simp only [ratiosNear, le_refl, decide_true, Bool.true_and]
  induction l with
  | nil => rfl
  | cons v l ih =>
    rw [List.zipWith_cons_cons, List.all_cons, ih fun w hw => hl w (List.mem_cons_of_mem _ hw), Bool.and_true]
    simp [closeTo_self (hl v List.mem_cons_self)]

/-- **C114** (what the formatted inputs are).  The content of the arguments: the numbers of segments and the ratios of the boreholes, one value or one array standing for all of them; so that
arguments with other ratios or numbers of segments have other formatted inputs. -/
theorem format_content (v : Val) {f : Inputs} (h : v.format t = some f) :
    (∀ l, v.q = .list l → f.ratios = l.map some) ∧ (∀ l, v.q = .array l → f.ratios = List.replicate t.n (some l)) ∧ (v.q = .none → f.ratios = List.replicate t.n none) ∧
    (∀ l, v.n = .list l → l.length = t.n → f.nSeg = l) ∧ (∀ n, v.n = .num n → f.nSeg = List.replicate t.n n) := by
  unfold Val.format formatInputs at h
  cases h1 : Net.format t v.m v.cp with
  | error e => rw [h1] at h; simp [Except.toOption] at h
  | ok g =>
    rw [h1] at h
    dsimp only at h
    cases h2 : formatSegments t.n v.n.toList with
    | error e => rw [h2] at h; simp [Except.toOption] at h
    | ok s =>
      rw [h2] at h
      dsimp only at h
      cases h3 : formatRatios t.n v.q.toArg with
      | error e => rw [h3] at h; simp [Except.toOption] at h
      | ok q =>
        rw [h3] at h
        obtain rfl : (⟨g, s, q⟩ : Inputs) = f := by simpa [Except.toOption] using h
        refine ⟨fun l hl => ?_, fun l hl => ?_, fun hl => ?_, fun l hl hn => ?_, fun n hn => ?_⟩
        · rw [hl] at h3; simpa [RatVal.toArg, formatRatios, eq_comm] using h3
        · rw [hl] at h3; simpa [RatVal.toArg, formatRatios, eq_comm] using h3
        · rw [hl] at h3; simpa [RatVal.toArg, formatRatios, eq_comm] using h3
        · rw [hl] at h2
          unfold formatSegments SegVal.toList at h2
          dsimp only at h2
          split at h2
          · next a => simp only [Except.ok.injEq] at h2; rw [← h2, ← hn]; rfl
          · rw [if_pos hn] at h2; simpa [eq_comm] using h2
        · rw [hn] at h2; simpa [SegVal.toList, formatSegments, eq_comm] using h2

/-- **C114** (violated: ratios).  A list of ratios that is modified in place is compared with itself: the method returns the coefficients of the old ratios, whatever the new ones. -/
theorem ratios_stale (h : Heap) (a : Args) (r : ℕ) (hq : a.q = .list r) (hm : ∀ x ∈ a.m.val h, x ≠ 0) (hc : ∀ x ∈ a.cp.val h, x ≠ 0) (l : List (List ℝ)) (hl : ∀ v ∈ l, ∀ x ∈ v, x ≠ 0) :
    let σ := prog t C h [.call (.inlet a), .setRats r l]
    (a.val σ.1).q = .list l ∧ (callInlet (aliasMachine t C σ.1) (pass t σ.1 a) σ.2).1 = ((a.val h).format t).bind C.inlet := by
  intro σ
  obtain ⟨m, cp, n, q⟩ := a
  cases hq
  have hσ : σ.1 = { h with rats := Function.update h.rats r l } := rfl
  have hq' : ((⟨m, cp, n, .list r⟩ : Args).val σ.1).q = .list l := by rw [hσ]; simp [Args.val, Rat.val]
  have hm' : m.val σ.1 = m.val h := by rw [hσ]; cases m <;> rfl
  have hc' : cp.val σ.1 = cp.val h := by rw [hσ]; cases cp <;> rfl
  refine ⟨hq', ?_⟩
  have hst : σ.2.sInlet = some (pass t h ⟨m, cp, n, .list r⟩, (((⟨m, cp, n, .list r⟩ : Args).val h).format t).bind C.inlet) := by
    show some (pass t h ⟨m, cp, n, .list r⟩, (valueMachine t C).inlet (live h (((⟨m, cp, n, .list r⟩ : Args).val h).format t, ⟨m, cp, n, .list r⟩))) = _
    rw [live_fmt]; rfl
  have hhit : (aliasMachine t C σ.1).hit (pass t h ⟨m, cp, n, .list r⟩) (pass t σ.1 ⟨m, cp, n, .list r⟩) = true := by
    show (closeTo (mcp t.nInlets (m.val σ.1, cp.val σ.1)) (mcp t.nInlets (m.val h, cp.val h)) && decide (n.val σ.1 = n.val σ.1) &&
      ratiosNear ((⟨m, cp, n, .list r⟩ : Args).val σ.1).q ((⟨m, cp, n, .list r⟩ : Args).val σ.1).q) = true
    rw [hm', hc', closeTo_self (mcp_ne hm hc), hq', ratiosNear_self hl]
    simp
  unfold callInlet
  rw [hst]
  unfold lookup
  dsimp only
  rw [if_pos hhit]

/-- **C114** (violated: numbers of segments).  The same for a list of numbers of segments. -/
theorem segments_stale (h : Heap) (a : Args) (r : ℕ) (hn : a.n = .ref r) (hq : a.q = .none) (hm : ∀ x ∈ a.m.val h, x ≠ 0) (hc : ∀ x ∈ a.cp.val h, x ≠ 0) (l : List ℕ) :
    let σ := prog t C h [.call (.inlet a), .setSegs r l]
    (a.val σ.1).n = .list l ∧ (callInlet (aliasMachine t C σ.1) (pass t σ.1 a) σ.2).1 = ((a.val h).format t).bind C.inlet := by
  intro σ
  obtain ⟨m, cp, n, q⟩ := a
  cases hn
  cases hq
  have hσ : σ.1 = { h with segs := Function.update h.segs r l } := rfl
  have hm' : m.val σ.1 = m.val h := by rw [hσ]; cases m <;> rfl
  have hc' : cp.val σ.1 = cp.val h := by rw [hσ]; cases cp <;> rfl
  refine ⟨by rw [hσ]; simp [Args.val, Seg.val], ?_⟩
  have hst : σ.2.sInlet = some (pass t h ⟨m, cp, .ref r, .none⟩, (((⟨m, cp, .ref r, .none⟩ : Args).val h).format t).bind C.inlet) := by
    show some (pass t h ⟨m, cp, .ref r, .none⟩, (valueMachine t C).inlet (live h (((⟨m, cp, .ref r, .none⟩ : Args).val h).format t, ⟨m, cp, .ref r, .none⟩))) = _
    rw [live_fmt]; rfl
  have hhit : (aliasMachine t C σ.1).hit (pass t h ⟨m, cp, .ref r, .none⟩) (pass t σ.1 ⟨m, cp, .ref r, .none⟩) = true := by
    show (closeTo (mcp t.nInlets (m.val σ.1, cp.val σ.1)) (mcp t.nInlets (m.val h, cp.val h)) && decide ((Seg.ref r).val σ.1 = (Seg.ref r).val σ.1) && true) = true
    rw [hm', hc', closeTo_self (mcp_ne hm hc)]
    simp
  unfold callInlet
  rw [hst]
  unfold lookup
  dsimp only
  rw [if_pos hhit]

/-- Two boreholes with two segments: the method goes on with the ratios 1/2 and 1/2 of the first call after these were changed to 1/4 and 3/4. -/
example (t : Topology) (C : Comp V B U) : ∃ (h : Heap) (a : Args), h.rats 0 = [[1 / 2, 1 / 2], [1 / 2, 1 / 2]] ∧ a.q = .list 0 ∧
    (let σ := prog t C h [.call (.inlet a), .setRats 0 [[1 / 4, 3 / 4], [1 / 4, 3 / 4]]]
    (a.val σ.1).q = .list [[1 / 4, 3 / 4], [1 / 4, 3 / 4]] ∧ (callInlet (aliasMachine t C σ.1) (pass t σ.1 a) σ.2).1 = ((a.val h).format t).bind C.inlet) :=
  ⟨⟨fun _ => [1, 1], fun _ => [], fun _ => [[1 / 2, 1 / 2], [1 / 2, 1 / 2]]⟩, ⟨.ref 0, .num 1, .num 2, .list 0⟩, rfl, rfl,
    ratios_stale _ _ 0 rfl (by simp [Flow.val]) (by simp [Flow.val]) _ (by norm_num)⟩

/-- The same for the numbers of segments. -/
example (t : Topology) (C : Comp V B U) : ∃ (h : Heap) (a : Args), h.segs 0 = [2, 3] ∧ a.n = .ref 0 ∧
    (let σ := prog t C h [.call (.inlet a), .setSegs 0 [4, 4]]
    (a.val σ.1).n = .list [4, 4] ∧ (callInlet (aliasMachine t C σ.1) (pass t σ.1 a) σ.2).1 = ((a.val h).format t).bind C.inlet) :=
  ⟨⟨fun _ => [1, 1], fun _ => [2, 3], fun _ => []⟩, ⟨.ref 0, .num 1, .ref 0, .none⟩, rfl, rfl, segments_stale _ _ 0 rfl rfl (by simp [Flow.val]) (by simp [Flow.val]) _⟩

/-- **C114** (violated: flow rates).  The array of the flow rates of the circuits is modified in place between two calls of the network outlet temperature, by more than the tolerance in
some circuit.  The outlet temperatures of the boreholes are those of the new flow rates, but they are mixed in the proportions of the old ones. -/
theorem mixing_stale (h : Heap) (r : ℕ) (c : ℝ) (n : Seg) (q : Rat) (m : List ℝ) (hm : ∀ x ∈ m, x ≠ 0) (hlen : m.length = t.nInlets ∧ (h.arr r).length = t.nInlets)
    {i i' : Inputs} (hi : ((⟨.ref r, .num c, n, q⟩ : Args).val h).format t = some i)
    (hi' : ((⟨.ref r, .num c, n, q⟩ : Args).val { h with arr := Function.update h.arr r m }).format t = some i')
    (hdiff : ∃ (k : ℕ) (x u : ℝ), k < t.nInlets ∧ m[k]? = some x ∧ (h.arr r)[k]? = some u ∧ |u * c| / 1000000 ≤ |x * c - u * c|) :
    let σ := prog t C h [.call (.netOut ⟨.ref r, .num c, n, q⟩), .setArr r m]
    (callNetOut (aliasMachine t C σ.1) (pass t σ.1 ⟨.ref r, .num c, n, q⟩) σ.2).1 =
      some ((C.outlet i').map (C.comb (mixing (flowOutlets t i.flow) i.flow.mIn))) := by
  intro σ
  obtain ⟨a, ha⟩ : ∃ a : Args, a = ⟨.ref r, .num c, n, q⟩ := ⟨_, rfl⟩
  obtain ⟨h', hh'⟩ : ∃ h' : Heap, h' = { h with arr := Function.update h.arr r m } := ⟨_, rfl⟩
  rw [← ha] at hi
  rw [← ha, ← hh'] at hi'
  obtain ⟨w, hw⟩ : ∃ w, w = mixing (flowOutlets t i.flow) i.flow.mIn := ⟨_, rfl⟩
  have hlive : live h ((a.val h).format t, a) = some i := by rw [live_fmt, hi]
  have hlive' : live h' ((a.val h').format t, a) = some i' := by rw [live_fmt, hi']
  have hσ : σ = (h', { f := some ((a.val h).format t, a), sOutlet := some (pass t h a, C.outlet i), mixS := some (pass t h a, w), sNetOut := some (pass t h a, (C.outlet i).map (C.comb w)) }) := by
    have : step (aliasMachine t C h) {} (.netOut (pass t h a)) =
        { f := some ((a.val h).format t, a), sOutlet := some (pass t h a, C.outlet i), mixS := some (pass t h a, w), sNetOut := some (pass t h a, (C.outlet i).map (C.comb w)) } := by
      have e1 : (aliasMachine t C h).outlet ((aliasMachine t C h).fmt (pass t h a)) = C.outlet i := by
        show (live h ((a.val h).format t, a)).bind C.outlet = _
        rw [hlive]; rfl
      have e2 : (aliasMachine t C h).mix ((aliasMachine t C h).fmt (pass t h a)) = w := by
        show (valueMachine t C).mix (live h ((a.val h).format t, a)) = _
        rw [hlive, hw]; rfl
      simp only [step, callNetOut, callOutlet, callMix, lookup, e1, e2]
      rfl
    rw [← this]
    subst hh' ha
    rfl
  have hmiss : (aliasMachine t C h').hit (pass t h a) (pass t h' a) = false := by
    rw [Bool.eq_false_iff]
    intro hhit
    have hcl : closeTo (mcp t.nInlets ((a.val h').m, (a.val h').cp)) (mcp t.nInlets ((a.val h).m, (a.val h).cp)) = true := by
      have hb : (closeTo (mcp t.nInlets ((a.val h').m, (a.val h').cp)) (mcp t.nInlets ((a.val h).m, (a.val h).cp)) && decide ((a.val h').n = (a.val h').n) &&
        ratiosNear (a.val h').q (a.val h').q) = true := hhit
      simp only [Bool.and_eq_true] at hb
      exact hb.1.1
    have hm' : (a.val h').m = m := by subst hh' ha; simp [Args.val, Flow.val]
    have hu' : (a.val h).m = h.arr r := by subst ha; rfl
    have hcp : (a.val h').cp = [c] ∧ (a.val h).cp = [c] := by subst ha; exact ⟨rfl, rfl⟩
    obtain ⟨k, x, u, hk, hx, hu, hd⟩ := hdiff
    have one : ∀ l : List ℝ, l.length = t.nInlets → perCircuit l k = l[k]? := by
      intro l hl
      unfold perCircuit
      split_ifs with h1
      · rw [show k = 0 by omega]
      · rfl
    have := closeTo_product (a := a.val h') (old := a.val h) (by rw [hm', hcp.1]; simp [hlen.1]) (by rw [hu', hcp.2]; simp [hlen.2]) hcl k x c u c hk
      (by rw [hm', one m hlen.1, hx]) (by rw [hcp.1]; rfl) (by rw [hu', one _ hlen.2, hu]) (by rw [hcp.2]; rfl)
    linarith
  have hnear : (aliasMachine t C h').near (pass t h a) (pass t h' a) = true := by
    have hm' : (a.val h').m = m := by subst hh' ha; simp [Args.val, Flow.val]
    show closeTo (bcast t.nInlets (a.val h').m) (bcast t.nInlets (a.val h').m) = true
    rw [hm']
    exact closeTo_self (bcast_ne hm)
  have e1 : (aliasMachine t C h').outlet ((aliasMachine t C h').fmt (pass t h' a)) = C.outlet i' := by
    show (live h' ((a.val h').format t, a)).bind C.outlet = _
    rw [hlive']; rfl
  rw [← ha, hσ, ← hw]
  simp only [callNetOut, callOutlet, callMix, lookup, hmiss, hnear, e1, if_true, Bool.false_eq_true, if_false]
  rfl

/-- **C114** (violated, witness).  Two boreholes in parallel, whose outlets are at the temperatures of the walls, 1 and 0.  The flow rates are changed in place from 1 and 3 to 2 and 2:
the network outlet is at 1/4, for a new object at 1/2. -/
theorem mixing_stale_witness : ∃ (t : Topology) (C : Comp (Coef (Fin 2) fun _ => 1) Unit (Coef Unit fun _ => 1)) (h : Heap) (u v : Coef Unit fun _ : Fin 2 => 1),
    construct 2 none = .ok t ∧ (∀ i, C.outlet i = netOutlet t (fun _ => wallPipe) i.flow) ∧ C.comb = netMixed ∧ h.arr 0 = [1, 3] ∧
    (let σ := prog t C h [.call (.netOut ⟨.ref 0, .num 1, .num 1, .none⟩), .setArr 0 [2, 2]]
    (callNetOut (aliasMachine t C σ.1) (pass t σ.1 ⟨.ref 0, .num 1, .num 1, .none⟩) σ.2).1 = some (some u) ∧
    (callNetOut (aliasMachine t C σ.1) (pass t σ.1 ⟨.ref 0, .num 1, .num 1, .none⟩) {}).1 = some (some v)) ∧
    u.eval 0 (fun s => if s.1 = 0 then 1 else 0) () = 1 / 4 ∧ v.eval 0 (fun s => if s.1 = 0 then 1 else 0) () = 1 / 2 := by
  obtain ⟨t, htd⟩ : ∃ t : Topology, t = ⟨2, [-1, -1], 2, 2, [0, 1], [0, 1], [0, 1]⟩ := ⟨_, rfl⟩
  have ht : construct 2 none = .ok t := by rw [htd]; rfl
  obtain ⟨C, hC⟩ : ∃ C : Comp (Coef (Fin 2) fun _ => 1) Unit (Coef Unit fun _ => 1),
      C = ⟨fun i => netInlet t (fun _ => wallPipe) i.flow, fun i => netOutlet t (fun _ => wallPipe) i.flow, fun _ _ => (), fun i => fluidHeat t (fun _ => wallPipe) i.flow, netHeat, netFromHeat,
        netMixed⟩ := ⟨_, rfl⟩
  obtain ⟨h, hh⟩ : ∃ h : Heap, h = ⟨fun _ => [1, 3], fun _ => [], fun _ => []⟩ := ⟨_, rfl⟩
  obtain ⟨i, hi⟩ : ∃ i : Inputs, i = ⟨⟨[1, 3], false, 1⟩, [1, 1], [none, none]⟩ := ⟨_, rfl⟩
  obtain ⟨i', hi'⟩ : ∃ i : Inputs, i = ⟨⟨[2, 2], false, 1⟩, [1, 1], [none, none]⟩ := ⟨_, rfl⟩
  have hf : ((⟨.ref 0, .num 1, .num 1, .none⟩ : Args).val h).format t = some i := by
    rw [hi, hh, htd]
    simp [Args.val, Flow.val, Seg.val, Rat.val, Val.format, formatInputs, Net.format, formatFlow, formatCp, formatSegments, formatRatios, SegVal.toList, RatVal.toArg, Except.toOption,
      List.replicate]
  have hf' : ((⟨.ref 0, .num 1, .num 1, .none⟩ : Args).val { h with arr := Function.update h.arr 0 [2, 2] }).format t = some i' := by
    rw [hi', hh, htd]
    simp [Args.val, Flow.val, Seg.val, Rat.val, Val.format, formatInputs, Net.format, formatFlow, formatCp, formatSegments, formatRatios, SegVal.toList, RatVal.toArg, Except.toOption,
      List.replicate]
  obtain ⟨ki, ko, hki, hko, hs⟩ := network_temperatures ht (fun _ : Fin 2 => wallPipe) i'.flow
  have hy : ∀ k, ko.eval 0 (fun s => if s.1 = 0 then 1 else 0) k = if k = 0 then 1 else 0 := fun k => by
    rw [(hs 0 _).1.model k]
    simp [boreA, boreB, wallPipe]
  have hout : C.outlet i' = some ko := by rw [hC]; exact hko
  have hcomb : C.comb = netMixed := by rw [hC]
  have hstale := mixing_stale (t := t) (C := C) h 0 1 (.num 1) .none [2, 2] (by simp) (by rw [htd, hh]; simp) hf hf' ⟨0, 2, 1, by rw [htd]; norm_num, rfl, by rw [hh]; rfl, by norm_num⟩
  refine ⟨t, C, h, netMixed (mixing (flowOutlets t i.flow) i.flow.mIn) ko, netMixed (mixing (flowOutlets t i'.flow) i'.flow.mIn) ko, ht, fun _ => by rw [hC], hcomb, by rw [hh], ⟨?_, ?_⟩, ?_, ?_⟩
  · rw [hstale, hout, hcomb]; rfl
  · have hlive : ∀ h' : Heap, h' = { h with arr := Function.update h.arr 0 [2, 2] } → (callNetOut (aliasMachine t C h') (pass t h' ⟨.ref 0, .num 1, .num 1, .none⟩) {}).1 =
        some ((C.outlet i').map (C.comb (mixing (flowOutlets t i'.flow) i'.flow.mIn))) := by
      rintro h' rfl
      have e1 := live_fmt (t := t) { h with arr := Function.update h.arr 0 [2, 2] } ⟨.ref 0, .num 1, .num 1, .none⟩
      rw [hf'] at e1
      show some ((valueMachine t C).comb ((valueMachine t C).mix (live _ _)) ((valueMachine t C).outlet (live _ _))) = _
      have e2 : (pass t { h with arr := Function.update h.arr 0 [2, 2] } ⟨.ref 0, .num 1, .num 1, .none⟩).1 = ⟨.ref 0, .num 1, .num 1, .none⟩ := rfl
      simp only [aliasMachine, e2, hf', e1]
      rfl
    have := hlive _ rfl
    rw [hout, hcomb] at this
    exact this
  · rw [mixed_eval]
    simp only [hy]
    rw [Fin.sum_univ_two, hi, htd]
    simp [mixing, flowOutlets, List.findIdx?_cons]
    norm_num
  · rw [mixed_eval]
    simp only [hy]
    rw [Fin.sum_univ_two, hi', htd]
    simp [mixing, flowOutlets, List.findIdx?_cons]
    norm_num

/-- Two boreholes in parallel with two and three segments: the ratios of the lists are those of the boreholes. -/
example : ∃ f, (⟨[1], [4000], .list [2, 3], .list [[1 / 2, 1 / 2], [1 / 4, 1 / 2, 1 / 4]]⟩ : Val).format ⟨2, [-1, -1], 2, 2, [0, 1], [0, 1], [0, 1]⟩ = some f ∧
    f.ratios = [some [1 / 2, 1 / 2], some [1 / 4, 1 / 2, 1 / 4]] ∧ f.nSeg = [2, 3] := by
  have h : ∃ f, (⟨[1], [4000], .list [2, 3], .list [[1 / 2, 1 / 2], [1 / 4, 1 / 2, 1 / 4]]⟩ : Val).format ⟨2, [-1, -1], 2, 2, [0, 1], [0, 1], [0, 1]⟩ = some f := by
    simp [Val.format, formatInputs, Net.format, formatFlow, formatCp, formatSegments, formatRatios, SegVal.toList, RatVal.toArg, Except.toOption]
  obtain ⟨f, hf⟩ := h
  obtain ⟨h1, -, -, h4, -⟩ := format_content _ hf
  exact ⟨f, hf, h1 _ rfl, h4 _ rfl rfl⟩

end Alias

end Verif.Net
