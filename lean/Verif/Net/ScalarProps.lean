import Verif.Net.CacheProps

/-!
# Properties C37 (network outlet) and C113 (a number is the total flow rate): histories of calls

The network outlet temperature is right whatever the earlier calls, if none of them asked for the outlet temperatures of the boreholes.  A flow rate given as a
number is taken for that of each circuit when an earlier call gave that flow rate to every circuit.
-/

noncomputable section

namespace Verif.Net

variable {A F V B U W : Type*} {M : Machine A F V B U W} {S : A → Prop}

/-- The outlet coefficients are only stored together with those of the network, and the weights are those of the arguments stored with them. -/
structure Inv2 (M : Machine A F V B U W) (S : A → Prop) (s : St A F V B U W) : Prop where
  netOut : Good s.sNetOut (pureNetOut M) S
  mix : Good s.mixS (fun a => M.mix (M.fmt a)) S
  same : ∀ k v, s.sOutlet = some (k, v) → ∃ u, s.sNetOut = some (k, u)

theorem lookup_none_same {X Y : Type*} {hit : A → A → Bool} {s : Option (A × X)} {r : Option (A × Y)} {a : A} (h : lookup hit s a = none)
    (hs : ∀ k v, r = some (k, v) → ∃ u, s = some (k, u)) : lookup hit r a = none := by
  cases r with
  | none => rfl
  | some kv =>
    obtain ⟨k, v⟩ := kv
    obtain ⟨u, rfl⟩ := hs k v rfl
    unfold lookup at h ⊢
    dsimp only at h ⊢
    split_ifs at h with hh
    rw [if_neg hh]

theorem callInlet_inv2 {a : A} {s : St A F V B U W} (hs : Inv2 M S s) : Inv2 M S (callInlet M a s).2 := by
  unfold callInlet
  cases lookup M.hit s.sInlet a with
  | some v => exact hs
  | none => exact ⟨hs.netOut, hs.mix, hs.same⟩

theorem callBore_inv2 {a : A} {s : St A F V B U W} (hs : Inv2 M S s) : Inv2 M S (callBore M a s).2 := by
  unfold callBore
  cases lookup M.hit s.sBore a with
  | some v => exact hs
  | none =>
    have h := callInlet_inv2 (a := a) (s := { s with f := some (M.fmt a) }) ⟨hs.netOut, hs.mix, hs.same⟩
    exact ⟨h.netOut, h.mix, h.same⟩

theorem callFluid_inv2 {a : A} {s : St A F V B U W} (hs : Inv2 M S s) : Inv2 M S (callFluid M a s).2 := by
  unfold callFluid
  cases lookup M.hit s.sFluid a with
  | some v => exact hs
  | none =>
    have h := callInlet_inv2 (a := a) (s := { s with f := some (M.fmt a) }) ⟨hs.netOut, hs.mix, hs.same⟩
    exact ⟨h.netOut, h.mix, h.same⟩

theorem callHeat_inv2 {a : A} {s : St A F V B U W} (hs : Inv2 M S s) : Inv2 M S (callHeat M a s).2 := by
  unfold callHeat
  cases lookup M.hit s.sHeat a with
  | some v => exact hs
  | none =>
    have h := callFluid_inv2 (a := a) hs
    exact ⟨h.netOut, h.mix, h.same⟩

theorem callNetIn_inv2 {a : A} {s : St A F V B U W} (hs : Inv2 M S s) : Inv2 M S (callNetIn M a s).2 := by
  unfold callNetIn
  cases lookup M.hit s.sNetIn a with
  | some v => exact hs
  | none =>
    have h := callHeat_inv2 (a := a) hs
    exact ⟨h.netOut, h.mix, h.same⟩

theorem callNetOut_inv2 (hS : ∀ k a, S k → S a → M.hit k a = true → k = a) (hN : ∀ k a, S k → S a → M.near k a = true → M.mix (M.fmt k) = M.mix (M.fmt a)) {a : A} (ha : S a)
    {s : St A F V B U W} (hs : Inv2 M S s) : (callNetOut M a s).1 = some (pureNetOut M a) ∧ Inv2 M S (callNetOut M a s).2 := by
  unfold callNetOut
  cases h : lookup M.hit s.sNetOut a with
  | some v => exact ⟨by rw [lookup_good hs.netOut hS ha h], hs⟩
  | none =>
    have ho : callOutlet M a s = (M.outlet (M.fmt a), { s with f := some (M.fmt a), sOutlet := some (a, M.outlet (M.fmt a)) }) := by
      unfold callOutlet
      rw [lookup_none_same h hs.same]
    dsimp only
    rw [ho]
    have hnew : ∀ q : St A F V B U W, Good q.mixS (fun a => M.mix (M.fmt a)) S → Inv2 M S { q with sOutlet := some (a, M.outlet (M.fmt a)), sNetOut := some (a, pureNetOut M a) } := by
      intro q hq
      refine ⟨good_new (pureNetOut M) a ha, hq, fun k v hk => ?_⟩
      obtain ⟨rfl, -⟩ := Prod.mk.inj (Option.some.inj hk)
      exact ⟨_, rfl⟩
    unfold callMix
    dsimp only
    cases hm : lookup M.near s.mixS a with
    | some w =>
      obtain ⟨k, hk⟩ := lookup_some hm
      obtain ⟨h1, h2⟩ := hs.mix k w hk
      have hnear : M.near k a = true := by
        rw [hk] at hm
        unfold lookup at hm
        dsimp only at hm
        split_ifs at hm with hh
        exact hh
      have hw : w = M.mix (M.fmt a) := h1.trans (hN k a h2 ha hnear)
      subst hw
      exact ⟨rfl, hnew { s with f := some (M.fmt a) } hs.mix⟩
    | none => exact ⟨rfl, hnew { s with f := some (M.fmt a), mixS := some (a, M.mix (M.fmt a)) } (good_new (fun a => M.mix (M.fmt a)) a ha)⟩

/-- Calls other than those of the outlet temperatures of the boreholes. -/
def NoOutlet (hist : List (Call A)) : Prop := ∀ a, Call.outlet a ∉ hist

theorem run_inv2 (hS : ∀ k a, S k → S a → M.hit k a = true → k = a) (hN : ∀ k a, S k → S a → M.near k a = true → M.mix (M.fmt k) = M.mix (M.fmt a)) (hist : List (Call A))
    (hh : ∀ c ∈ hist, S c.arg) (hno : NoOutlet hist) : Inv2 M S (run M hist) := by
  unfold run
  have key : ∀ (l : List (Call A)) (s : St A F V B U W), (∀ c ∈ l, S c.arg) → NoOutlet l → Inv2 M S s → Inv2 M S (l.foldl (step M) s) := by
    intro l
    induction l with
    | nil => intro s _ _ hs; exact hs
    | cons c l ih =>
      intro s hl hn hs
      refine ih _ (fun d hd => hl d (List.mem_cons_of_mem _ hd)) (fun a ha => hn a (List.mem_cons_of_mem _ ha)) ?_
      cases c with
      | inlet a => exact callInlet_inv2 hs
      | outlet a => exact absurd List.mem_cons_self (hn a)
      | netIn a => exact callNetIn_inv2 hs
      | netOut a => exact (callNetOut_inv2 hS hN (hl _ List.mem_cons_self) hs).2
      | bore a => exact callBore_inv2 hs
      | fluid a => exact callFluid_inv2 hs
      | heat a => exact callHeat_inv2 hs
  refine key hist {} hh hno ⟨?_, ?_, ?_⟩ <;> (intro k v h; simp at h)

/-- The cache of a network tells arguments apart that differ by one part in a million in some circuit. -/
theorem hit_apart {n : ℕ} {ns : Fin n → ℕ} (t : Topology) (p : (i : Fin n) → Pipe (ns i)) {S : NetArgs → Prop}
    (hlen : ∀ a, S a → (a.1.length = t.nInlets ∨ a.1.length = 1) ∧ (a.2.length = t.nInlets ∨ a.2.length = 1))
    (hsep : ∀ k a, S k → S a → (∀ (i : ℕ) (x y u v : ℝ), i < t.nInlets → perCircuit a.1 i = some x → perCircuit a.2 i = some y → perCircuit k.1 i = some u →
      perCircuit k.2 i = some v → |x * y - u * v| < |u * v| / 1000000) → k = a) :
    ∀ k a, S k → S a → (netMachine t p).hit k a = true → k = a := by
  intro k a hk ha hhit
  refine hsep k a hk ha fun i x y u v hi hx hy hu hv => ?_
  obtain ⟨hk1, hk2⟩ := hlen k hk
  obtain ⟨ha1, ha2⟩ := hlen a ha
  obtain ⟨l1, g1⟩ := bcast_get hk1
  obtain ⟨l2, g2⟩ := bcast_get hk2
  obtain ⟨l3, g3⟩ := bcast_get ha1
  obtain ⟨l4, g4⟩ := bcast_get ha2
  rw [← g1 i hi, List.getElem?_eq_some_iff] at hu
  rw [← g2 i hi, List.getElem?_eq_some_iff] at hv
  rw [← g3 i hi, List.getElem?_eq_some_iff] at hx
  rw [← g4 i hi, List.getElem?_eq_some_iff] at hy
  obtain ⟨ix, rfl⟩ := hx
  obtain ⟨iy, rfl⟩ := hy
  obtain ⟨iu, rfl⟩ := hu
  obtain ⟨iv, rfl⟩ := hv
  have hm : closeTo (mcp t.nInlets a) (mcp t.nInlets k) = true := hhit
  unfold mcp at hm
  have := closeTo_get hm i (by simp; omega) (by simp; omega)
  simpa using this

/-- **C37** (network outlet, the part that holds).  In `S`, two arguments are the same or differ by at least one part in a million in the product of flow rate and
heat capacity of some circuit, and so do their flow rates.  If no earlier call asked for the outlet temperatures of the boreholes, the network outlet temperature is that of
the arguments: outlet temperatures of the boreholes mixed in the proportions of the flow rates.  Missing: histories with such calls (`history_dependent`). -/
theorem network_outlet_mixed_partial {n : ℕ} {ns : Fin n → ℕ} (t : Topology) (p : (i : Fin n) → Pipe (ns i)) (S : NetArgs → Prop)
    (hlen : ∀ a, S a → (a.1.length = t.nInlets ∨ a.1.length = 1) ∧ (a.2.length = t.nInlets ∨ a.2.length = 1))
    (hok : ∀ a, S a → ∃ f, format t a.1 a.2 = .ok f)
    (hsep : ∀ k a, S k → S a → (∀ (i : ℕ) (x y u v : ℝ), i < t.nInlets → perCircuit a.1 i = some x → perCircuit a.2 i = some y → perCircuit k.1 i = some u →
      perCircuit k.2 i = some v → |x * y - u * v| < |u * v| / 1000000) → k = a)
    (hflow : ∀ k a, S k → S a → (∀ (i : ℕ) (x u : ℝ), i < t.nInlets → perCircuit a.1 i = some x → perCircuit k.1 i = some u → |x - u| < |u| / 1000000) → k.1 = a.1)
    (hist : List (Call NetArgs)) (hh : ∀ c ∈ hist, S c.arg) (hno : NoOutlet hist) (a : NetArgs) (ha : S a) {f : Formatted} (hf : format t a.1 a.2 = .ok f) :
    (callNetOut (netMachine t p) a (run (netMachine t p) hist)).1 = some ((netOutlet t p f).map (netMixed (mixing (flowOutlets t f) f.mIn))) := by
  have hN : ∀ k a, S k → S a → (netMachine t p).near k a = true → (netMachine t p).mix ((netMachine t p).fmt k) = (netMachine t p).mix ((netMachine t p).fmt a) := by
    intro k a hk ha hnear
    have he : k.1 = a.1 := by
      refine hflow k a hk ha fun i x u hi hx hu => ?_
      obtain ⟨l1, g1⟩ := bcast_get (hlen k hk).1
      obtain ⟨l3, g3⟩ := bcast_get (hlen a ha).1
      rw [← g1 i hi, List.getElem?_eq_some_iff] at hu
      rw [← g3 i hi, List.getElem?_eq_some_iff] at hx
      obtain ⟨ix, rfl⟩ := hx
      obtain ⟨iu, rfl⟩ := hu
      have hm : closeTo (bcast t.nInlets a.1) (bcast t.nInlets k.1) = true := hnear
      exact closeTo_get hm i (by omega) (by omega)
    obtain ⟨fk, hfk⟩ := hok k hk
    obtain ⟨fa, hfa⟩ := hok a ha
    have h1 : fk.mIn = fa.mIn ∧ fk.rev = fa.rev := by
      unfold format at hfk hfa
      rw [he] at hfk
      cases hfl : formatFlow t.nInlets a.1 with
      | error e => rw [hfl] at hfa; cases hfa
      | ok m =>
        rw [hfl] at hfk hfa
        dsimp only at hfk hfa
        by_cases hpos : ∀ x ∈ a.1, 0 ≤ x
        · rw [if_pos hpos] at hfk hfa
          cases hck : formatCp t.nInlets k.2 <;> cases hca : formatCp t.nInlets a.2 <;> rw [hck] at hfk <;> rw [hca] at hfa <;> cases hfk <;> cases hfa
          exact ⟨rfl, rfl⟩
        · rw [if_neg hpos] at hfk hfa
          by_cases hneg : ∀ x ∈ a.1, x ≤ 0
          · rw [if_pos hneg] at hfk hfa
            cases hck : formatCp t.nInlets k.2 <;> cases hca : formatCp t.nInlets a.2 <;> rw [hck] at hfk <;> rw [hca] at hfa <;> cases hfk <;> cases hfa
            exact ⟨rfl, rfl⟩
          · rw [if_neg hneg] at hfa; cases hfa
    simp only [netMachine, hfk, hfa, Except.toOption, flowOutlets, h1.1, h1.2]
  have hS := hit_apart t p hlen hsep
  rw [(callNetOut_inv2 hS hN ha (run_inv2 hS hN hist hh hno)).1]
  simp only [pureNetOut, netMachine, hf, Except.toOption, Option.bind_some]

/-- Two operating points of a network of two circuits in turn; inlet temperatures and heat in between. -/
example (t : Topology) (ht : t.nInlets = 2) (p : (i : Fin 2) → Pipe 1) : ∃ f, format t [1, 3] [1] = .ok f ∧
    (callNetOut (netMachine t p) ([1, 3], [1]) (run (netMachine t p) [.netOut ([1, 3], [1]), .netOut ([2, 2], [1]), .inlet ([1, 3], [1]), .heat ([2, 2], [1])])).1 =
      some ((netOutlet t p f).map (netMixed (mixing (flowOutlets t f) f.mIn))) := by
  have hf : format t [1, 3] [1] = .ok ⟨[1, 3], false, 1⟩ := by simp [format, formatFlow, formatCp, ht]
  refine ⟨_, hf, network_outlet_mixed_partial t p (fun a => a = ([1, 3], [1]) ∨ a = ([2, 2], [1])) ?_ ?_ ?_ ?_ _ ?_ ?_ _ (Or.inl rfl) hf⟩
  · rintro a (rfl | rfl) <;> simp [ht]
  · rintro a (rfl | rfl)
    · exact ⟨_, hf⟩
    · exact ⟨⟨[2, 2], false, 1⟩, by simp [format, formatFlow, formatCp, ht]⟩
  · rintro k a (rfl | rfl) (rfl | rfl) h
    · rfl
    · have := h 0 2 1 1 1 (by omega) rfl rfl rfl rfl; norm_num at this
    · have := h 0 1 1 2 1 (by omega) rfl rfl rfl rfl; norm_num at this
    · rfl
  · rintro k a (rfl | rfl) (rfl | rfl) h
    · rfl
    · have := h 0 2 1 (by omega) rfl rfl; norm_num at this
    · have := h 0 1 2 (by omega) rfl rfl; norm_num at this
    · rfl
  · intro c hc; fin_cases hc <;> simp [Call.arg]
  · intro a ha; simp at ha

/-! ### A number or one value per circuit -/

theorem formatFlow_many {k : ℕ} (hk : 2 ≤ k) {l : List ℝ} (hl : l.length = k) : formatFlow k l = .ok l := by
  match l, hl with
  | [], h => exact if_pos h
  | [a], h => simp at h; omega
  | a :: b :: l, h => exact if_pos h

/-- **C113** (the part that holds).  On a new object, a number gives what the same total flow rate gives when it is split equally by the caller; the weights of the outlets as well. -/
theorem scalar_total_partial {n : ℕ} {ns : Fin n → ℕ} (t : Topology) (p : (i : Fin n) → Pipe (ns i)) (hn : 2 ≤ t.nInlets) (x : ℝ) (cp : List ℝ) :
    let y : List ℝ := List.replicate t.nInlets (x / t.nInlets)
    (callInlet (netMachine t p) ([x], cp) (run (netMachine t p) [])).1 = (callInlet (netMachine t p) (y, cp) (run (netMachine t p) [])).1 ∧
    (callOutlet (netMachine t p) ([x], cp) (run (netMachine t p) [])).1 = (callOutlet (netMachine t p) (y, cp) (run (netMachine t p) [])).1 ∧
    (callNetIn (netMachine t p) ([x], cp) (run (netMachine t p) [])).1 = (callNetIn (netMachine t p) (y, cp) (run (netMachine t p) [])).1 ∧
    (callNetOut (netMachine t p) ([x], cp) (run (netMachine t p) [])).1 = (callNetOut (netMachine t p) (y, cp) (run (netMachine t p) [])).1 ∧
    (callBore (netMachine t p) ([x], cp) (run (netMachine t p) [])).1 = (callBore (netMachine t p) (y, cp) (run (netMachine t p) [])).1 ∧
    (callFluid (netMachine t p) ([x], cp) (run (netMachine t p) [])).1 = (callFluid (netMachine t p) (y, cp) (run (netMachine t p) [])).1 ∧
    (callHeat (netMachine t p) ([x], cp) (run (netMachine t p) [])).1 = (callHeat (netMachine t p) (y, cp) (run (netMachine t p) [])).1 := by
  intro y
  have hpos : (0 : ℝ) < t.nInlets := by exact_mod_cast (show 0 < t.nInlets by omega)
  have e : format t [x] cp = format t y cp := by
    have e1 : formatFlow t.nInlets y = .ok y := formatFlow_many hn (by simp [y])
    have e2 : (∀ a ∈ y, 0 ≤ a) ↔ ∀ a ∈ [x], 0 ≤ a := by
      simp only [y, List.mem_replicate, List.mem_singleton, forall_eq, and_imp]
      constructor
      · intro h; have := h _ (by omega) rfl; rw [le_div_iff₀ hpos] at this; linarith
      · rintro h _ _ rfl; positivity
    have e3 : (∀ a ∈ y, a ≤ 0) ↔ ∀ a ∈ [x], a ≤ 0 := by
      simp only [y, List.mem_replicate, List.mem_singleton, forall_eq, and_imp]
      constructor
      · intro h; have := h _ (by omega) rfl; rw [div_le_iff₀ hpos] at this; linarith
      · rintro h _ _ rfl; exact div_nonpos_of_nonpos_of_nonneg h hpos.le
    unfold format
    rw [e1]
    simp only [e2, e3]
    rfl
  have hfmt : (netMachine t p).fmt ([x], cp) = (netMachine t p).fmt (y, cp) := by simp only [netMachine, e]
  simp only [run, List.foldl_nil, callInlet, callOutlet, callNetIn, callNetOut, callBore, callFluid, callHeat, callMix, lookup, hfmt, and_self]

/-- **C113** (violated).  After a call with the flow rate `x` in every circuit, the number `x`, which is the total flow rate of the network, gives the coefficients of the total
flow rate `x` times the number of circuits. -/
theorem scalar_total_fails {n : ℕ} {ns : Fin n → ℕ} (t : Topology) (p : (i : Fin n) → Pipe (ns i)) (x c : ℝ) (hx : x ≠ 0) (hc : c ≠ 0) :
    (callHeat (netMachine t p) ([x], [c]) (run (netMachine t p) [.heat (List.replicate t.nInlets x, [c])])).1 =
      (callHeat (netMachine t p) (List.replicate t.nInlets x, [c]) (run (netMachine t p) [])).1 ∧
    (callInlet (netMachine t p) ([x], [c]) (run (netMachine t p) [.heat (List.replicate t.nInlets x, [c])])).1 =
      (callInlet (netMachine t p) (List.replicate t.nInlets x, [c]) (run (netMachine t p) [])).1 := by
  have hb : bcast t.nInlets (List.replicate t.nInlets x) = bcast t.nInlets [x] := by
    show _ = List.replicate t.nInlets x
    unfold bcast
    split
    · rename_i a h
      have h1 := congrArg List.length h
      simp at h1
      rw [h1] at h ⊢
      simpa using h.symm
    · rfl
  have hhit : (netMachine t p).hit (List.replicate t.nInlets x, [c]) ([x], [c]) = true := by
    have : closeTo (mcp t.nInlets ([x], [c])) (mcp t.nInlets (List.replicate t.nInlets x, [c])) = true := by
      unfold mcp
      dsimp only
      rw [hb]
      simp only [bcast, List.zipWith_replicate, closeTo, min_self]
      rw [List.all_eq_true]
      intro b hb
      rw [(List.mem_replicate.mp hb).2]
      have : 0 < |x * c| := abs_pos.mpr (mul_ne_zero hx hc)
      simp only [sub_self, abs_zero, id, decide_eq_true_eq]
      positivity
    exact this
  constructor
  · simp only [run, List.foldl_cons, List.foldl_nil, step, callHeat, callFluid, callInlet, lookup, hhit, if_true]
  · simp only [run, List.foldl_cons, List.foldl_nil, step, callHeat, callFluid, callInlet, lookup, hhit, if_true]

/-- **C113** (violated, witness).  Two boreholes in parallel, whose outlet is at the temperature of the wall, one degree above the inlet.  The total flow rate 2 extracts 2; after a call with the flow rates 2 and
2, it extracts 4. -/
theorem scalar_total_witness : ∃ (t : Topology) (u v : Coef Unit (fun _ : Fin 2 => 1)), construct 2 none = .ok t ∧
    (callHeat (netMachine t (fun _ : Fin 2 => wallPipe)) ([2], [1]) (run (netMachine t fun _ => wallPipe) [])).1 = some u ∧
    (callHeat (netMachine t (fun _ : Fin 2 => wallPipe)) ([2], [1]) (run (netMachine t fun _ => wallPipe) [.heat ([2, 2], [1])])).1 = some v ∧
    u.eval 0 (fun _ => 1) () = 2 ∧ v.eval 0 (fun _ => 1) () = 4 := by
  obtain ⟨t, htd⟩ : ∃ t : Topology, t = ⟨2, [-1, -1], 2, 2, [0, 1], [0, 1], [0, 1]⟩ := ⟨_, rfl⟩
  have ht : construct 2 none = .ok t := by rw [htd]; rfl
  have hfail := (scalar_total_fails t (fun _ : Fin 2 => wallPipe) 2 1 (by norm_num) (by norm_num)).1
  rw [show List.replicate t.nInlets (2 : ℝ) = [2, 2] by rw [htd]; rfl] at hfail
  have hval : ∀ (m : List ℝ) (q : ℝ), format t m [1] = .ok ⟨[q, q], false, 1⟩ → 0 ≤ q → ∃ u : Coef Unit (fun _ : Fin 2 => 1),
      (callHeat (netMachine t (fun _ : Fin 2 => wallPipe)) (m, [1]) (run (netMachine t fun _ => wallPipe) [])).1 = some u ∧ u.eval 0 (fun _ => 1) () = 2 * q := by
    intro m q hf hq
    obtain ⟨ki, ko, hki, hko, hs⟩ := network_temperatures ht (fun _ : Fin 2 => wallPipe) ⟨[q, q], false, 1⟩
    refine ⟨netHeat (fluidHeat t (fun _ => wallPipe) ⟨[q, q], false, 1⟩ ki), ?_, ?_⟩
    · simp only [run, List.foldl_nil, callHeat, callFluid, callInlet, lookup, netMachine, hf, Except.toOption, Option.bind_some, hki, Option.map_some]
    · have hy : ∀ i, ko.eval 0 (fun _ => 1) i = 1 := fun i => by
        rw [(hs 0 fun _ => 1).1.model i]
        simp [boreA, boreB, wallPipe]
      rw [heat_total ht _ _ (by rw [htd]; rfl) ki ko hki hko]
      simp only [hy]
      rw [Fin.sum_univ_two, htd]
      simp [mBore, flowOutlets, abs_of_nonneg hq]
      ring
  obtain ⟨u, hu, hu'⟩ := hval [2] 1 (by rw [htd]; simp [format, formatFlow, formatCp]) (by norm_num)
  obtain ⟨v, hv, hv'⟩ := hval [2, 2] 2 (by rw [htd]; simp [format, formatFlow, formatCp]) (by norm_num)
  exact ⟨t, u, v, ht, hu, hfail.trans hv, by rw [hu']; norm_num, by rw [hv']; norm_num⟩

end Verif.Net
