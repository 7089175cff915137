import Verif.Pipe.CacheModel
import Verif.Pipe.UTubeHeatProps

/-!
# Property C42: results of a pipe do not depend on earlier calls (violated for temperatures)
-/

noncomputable section

namespace Verif.Pipe.Cache

/-! ### Specification: results as functions of the pipe and the arguments only -/

variable (edges : ℕ → Option (List ℝ) → ℕ → ℝ) (t : UTube)

def pureOutlet (a : Args) : Co := ((t.par a.m a.cp).outA, fun u => (t.par a.m a.cp).outB (edges a.n a.ratios) u)
def pureTemp (a : Args) (z : ℝ) : (Fin 2 → ℝ) × (Fin 2 → ℕ → ℝ) :=
  (t.tempA a.m a.cp z, t.tempB (edges a.n a.ratios) a.m a.cp z)
def pureBore (a : Args) : (ℕ → ℝ) × (ℕ → ℕ → ℝ) :=
  (t.heatA (edges a.n a.ratios) a.m a.cp, t.heatB (edges a.n a.ratios) a.m a.cp)
def pureFluid (a : Args) : Co :=
  (-(|a.m| * a.cp) + |a.m| * a.cp * (t.par a.m a.cp).outA, fun u => |a.m| * a.cp * (t.par a.m a.cp).outB (edges a.n a.ratios) u)
def pureInlet (a : Args) : Option Co :=
  open Classical in if (pureFluid edges t a).1 = 0 then none else some (1 / (pureFluid edges t a).1, fun u => -(pureFluid edges t a).2 u / (pureFluid edges t a).1)

theorem invOf_eq (a : Args) : invOf (pureFluid edges t a) = pureInlet edges t a := by
  unfold invOf pureInlet
  split_ifs
  · rfl
  · simp only [div_eq_inv_mul, mul_one, mul_neg]

/-- The pipe after a history of calls: the last resistances that were set. -/
def pipeAfter (t : UTube) (hist : List Call) : UTube :=
  hist.foldl (fun t c => match c with | .update t' => t' | _ => t) t

/-- The arguments of a call are in `S`. -/
def Call.within (S : Args → Prop) : Call → Prop
  | .inlet a | .outlet a | .temp a | .bore a | .fluid a => S a
  | .update _ => True

/-- Arguments within one part in a million of the arguments of an earlier call `k`: product of flow rate and heat capacity, ratios; same number of
segments. -/
structure Close (k a : Args) : Prop where
  mcp : |a.m * a.cp - k.m * k.cp| < |k.m * k.cp| / 1000000
  n : a.n = k.n
  none_iff : a.ratios = none ↔ k.ratios = none
  ratios : ∀ s r, k.ratios = some s → a.ratios = some r → List.Forall₂ (fun y x => |y - x| < |x| / 1000000) r s

/-- A set of arguments with positive heat capacities in which arguments are either the same for the methods (same product of
flow rate and heat capacity, same segments) or differ by more than the tolerance of the store. -/
structure Apart (S : Args → Prop) : Prop where
  cp : ∀ a, S a → 0 < a.cp
  sep : ∀ k a, S k → S a → Close k a → a.m * a.cp = k.m * k.cp ∧ a.n = k.n ∧ a.ratios = k.ratios

/-! ### Proof -/

theorem near_iff {x y : ℝ} : near x y = true ↔ |x - y| < |y| / 1000000 := by
  unfold near
  rw [decide_eq_true_eq, show |y| * (1 / 10 ^ 6) = |y| / 1000000 by ring]

theorem forall₂_near : ∀ {r s : List ℝ}, r.length = s.length → (List.zipWith near r s).all id = true →
    List.Forall₂ (fun y x => |y - x| < |x| / 1000000) r s
  | [], [], _, _ => .nil
  | y :: r, x :: s, hl, h => by
    simp only [List.zipWith_cons_cons, List.all_cons, id, Bool.and_eq_true] at h
    exact .cons (near_iff.mp h.1) (forall₂_near (by simpa using hl) h.2)

theorem hit_close {k a : Args} (h : hit k a = true) : Close k a := by
  unfold hit at h
  simp only [Bool.and_eq_true, beq_iff_eq] at h
  obtain ⟨⟨h1, h2⟩, h3⟩ := h
  refine ⟨near_iff.mp h1, h2, ?_, ?_⟩
  · unfold ratiosNear at h3
    cases hk : k.ratios <;> cases ha : a.ratios <;> simp_all
  · intro s r hs hr
    rw [hs, hr] at h3
    simp only [ratiosNear, Bool.and_eq_true, beq_iff_eq] at h3
    exact forall₂_near h3.1 h3.2

variable {edges t} {S : Args → Prop} (hS : Apart S)

theorem par_congr {a k : Args} (ha : 0 < a.cp) (hk : 0 < k.cp) (h : a.m * a.cp = k.m * k.cp) :
    t.isReversed a.m = t.isReversed k.m ∧ |a.m| * a.cp = |k.m| * k.cp := by
  constructor
  · unfold UTube.isReversed
    have : a.m < 0 ↔ k.m < 0 := by
      have h1 : ∀ x c : ℝ, 0 < c → (x < 0 ↔ x * c < 0) := fun x c hc =>
        ⟨fun hx => mul_neg_of_neg_of_pos hx hc, fun hx => by by_contra hn; push Not at hn; nlinarith [mul_nonneg hn hc.le]⟩
      rw [h1 _ _ ha, h, ← h1 _ _ hk]
    simp [this]
  · have h1 : ∀ x c : ℝ, 0 < c → |x| * c = |x * c| := fun x c hc => by rw [abs_mul, abs_of_pos hc]
    rw [h1 _ _ ha, h1 _ _ hk, h]

/-- Stored values are those of the arguments stored with them. -/
def Good {X : Type*} (S : Args → Prop) (s : Option (Args × X)) (g : Args → X) : Prop := ∀ k v, s = some (k, v) → v = g k ∧ S k

structure Inv (edges : ℕ → Option (List ℝ) → ℕ → ℝ) (t : UTube) (S : Args → Prop) (s : St) : Prop where
  pipe : s.t = t
  mv : Good S s.mv fun a => t.par a.m a.cp
  s3 : ∀ k v, s.s3 = some (k, v) → pureInlet edges t k = some v ∧ S k
  s4 : Good S s.s4 (pureOutlet edges t)
  s6 : Good S s.s6 (pureBore edges t)
  s7 : Good S s.s7 (pureFluid edges t)
  f : s.mv ≠ none → s.f ≠ none

theorem good_new {X : Type*} (g : Args → X) {a : Args} (ha : S a) : Good S (some (a, g a)) g := by
  intro k v h
  simp only [Option.some.injEq, Prod.mk.injEq] at h
  obtain ⟨rfl, rfl⟩ := h
  exact ⟨rfl, ha⟩

theorem lookup_some {X : Type*} {s : Option (Args × X)} {a : Args} {v : X} (h : lookup s a = some v) :
    ∃ k, s = some (k, v) ∧ hit k a = true := by
  unfold lookup at h
  cases s with
  | none => simp at h
  | some kv =>
    obtain ⟨k, w⟩ := kv
    simp only at h
    split_ifs at h with hh
    simp only [Option.some.injEq] at h
    exact ⟨k, by rw [h], hh⟩

include hS

theorem par_same {a k : Args} (ha : S a) (hk : S k) (h : hit k a = true) : t.par k.m k.cp = t.par a.m a.cp := by
  obtain ⟨h1, h2, h3⟩ := hS.sep k a hk ha (hit_close h)
  obtain ⟨g1, g2⟩ := par_congr (t := t) (hS.cp a ha) (hS.cp k hk) h1
  unfold UTube.par UTube.iInlet UTube.iOutlet
  rw [g1, g2]

theorem outlet_same {a k : Args} (ha : S a) (hk : S k) (h : hit k a = true) : pureOutlet edges t k = pureOutlet edges t a := by
  obtain ⟨h1, h2, h3⟩ := hS.sep k a hk ha (hit_close h)
  unfold pureOutlet
  rw [par_same hS ha hk h, h2, h3]

theorem fluid_same {a k : Args} (ha : S a) (hk : S k) (h : hit k a = true) : pureFluid edges t k = pureFluid edges t a := by
  obtain ⟨h1, h2, h3⟩ := hS.sep k a hk ha (hit_close h)
  obtain ⟨-, g2⟩ := par_congr (t := t) (hS.cp a ha) (hS.cp k hk) h1
  unfold pureFluid
  rw [par_same hS ha hk h, h2, h3, g2]

theorem bore_same {a k : Args} (ha : S a) (hk : S k) (h : hit k a = true) : pureBore edges t k = pureBore edges t a := by
  obtain ⟨h1, h2, h3⟩ := hS.sep k a hk ha (hit_close h)
  obtain ⟨g1, -⟩ := par_congr (t := t) (hS.cp a ha) (hS.cp k hk) h1
  have hm : ∀ i, UTube.mFlowPipe k.m i * k.cp = UTube.mFlowPipe a.m i * a.cp := by
    intro i; unfold UTube.mFlowPipe; split_ifs
    · exact h1.symm
    · linarith
  unfold pureBore
  rw [← h2, ← h3]
  congr 1
  · funext v
    unfold UTube.heatA UTube.tempA UTube.iInlet
    rw [par_same hS ha hk h, g1]
    exact Finset.sum_congr rfl fun i _ => by rw [hm]
  · funext v u
    unfold UTube.heatB UTube.tempB UTube.iInlet
    rw [par_same hS ha hk h, g1]
    exact Finset.sum_congr rfl fun i _ => by rw [hm]

theorem checkMv_inv {a : Args} (ha : S a) {s : St} (hs : Inv edges t S s) :
    (checkMv a s).1 = t.par a.m a.cp ∧ Inv edges t S (checkMv a s).2 ∧
    ((checkMv a s).2.f = s.f ∧ (checkMv a s).2.mv ≠ none ∨ (checkMv a s).2.f = some (a.m, a.cp)) := by
  unfold checkMv
  cases h : lookup s.mv a with
  | some p =>
    obtain ⟨k, h1, h2⟩ := lookup_some h
    obtain ⟨rfl, h4⟩ := hs.mv k p h1
    exact ⟨par_same hS ha h4 h2, hs, Or.inl ⟨rfl, by rw [h1]; simp⟩⟩
  | none =>
    refine ⟨by rw [hs.pipe], ⟨hs.pipe, ?_, hs.s3, hs.s4, hs.s6, hs.s7, by simp⟩, Or.inr rfl⟩
    rw [hs.pipe]
    exact good_new (fun a => t.par a.m a.cp) ha

theorem callOutlet_inv {a : Args} (ha : S a) {s : St} (hs : Inv edges t S s) :
    (callOutlet edges a s).1 = pureOutlet edges t a ∧ Inv edges t S (callOutlet edges a s).2 ∧
    ((callOutlet edges a s).2.f = s.f ∨ (callOutlet edges a s).2.f = some (a.m, a.cp)) := by
  unfold callOutlet
  cases h : lookup s.s4 a with
  | some v =>
    obtain ⟨k, h1, h2⟩ := lookup_some h
    obtain ⟨rfl, h4⟩ := hs.s4 k v h1
    exact ⟨outlet_same hS ha h4 h2, hs, Or.inl rfl⟩
  | none =>
    obtain ⟨h1, h2, h3⟩ := checkMv_inv hS ha hs
    dsimp only
    have e : outletOf edges (checkMv a s).1 a = pureOutlet edges t a := by rw [h1]; rfl
    rw [e]
    exact ⟨rfl, ⟨h2.pipe, h2.mv, h2.s3, good_new _ ha, h2.s6, h2.s7, h2.f⟩, h3.imp_left And.left⟩

theorem callTemp_inv {a : Args} (ha : S a) {s : St} (hs : Inv edges t S s) :
    Inv edges t S (callTemp edges a s).2 ∧
    ((callTemp edges a s).2.f = s.f ∨ (callTemp edges a s).2.f = some (a.m, a.cp)) ∧
    ∃ f, (callTemp edges a s).2.f = some f ∧
      (callTemp edges a s).1 = some (tempOf edges (t.par a.m a.cp) (t.iInlet f.1) a) := by
  obtain ⟨h1, h2, h3⟩ := checkMv_inv hS ha hs
  unfold callTemp
  dsimp only
  refine ⟨h2, h3.imp_left And.left, ?_⟩
  have hf : (checkMv a s).2.f ≠ none := by
    rcases h3 with ⟨h3, h4⟩ | h3
    · exact h2.f h4
    · rw [h3]; simp
  obtain ⟨f, hf⟩ := Option.ne_none_iff_exists'.mp hf
  refine ⟨f, hf, ?_⟩
  rw [hf, h1, hs.pipe]
  rfl

theorem callBore_inv {a : Args} (ha : S a) {s : St} (hs : Inv edges t S s) :
    (callBore edges a s).1 = some (pureBore edges t a) ∧ Inv edges t S (callBore edges a s).2 ∧
    ((callBore edges a s).2.f = s.f ∨ (callBore edges a s).2.f = some (a.m, a.cp)) := by
  unfold callBore
  cases h : lookup s.s6 a with
  | some v =>
    obtain ⟨k, h1, h2⟩ := lookup_some h
    obtain ⟨rfl, h4⟩ := hs.s6 k v h1
    exact ⟨by rw [bore_same hS ha h4 h2], hs, Or.inl rfl⟩
  | none =>
    have hs' : Inv edges t S { s with f := some (a.m, a.cp) } := ⟨hs.pipe, hs.mv, hs.s3, hs.s4, hs.s6, hs.s7, by simp⟩
    obtain ⟨h2, h3, f, h4, h5⟩ := callTemp_inv hS ha hs'
    have hfa : f = (a.m, a.cp) := by
      have h6 : (callTemp edges a { s with f := some (a.m, a.cp) }).2.f = some (a.m, a.cp) := by
        rcases h3 with h3 | h3 <;> exact h3
      rw [h6, Option.some.injEq] at h4
      exact h4.symm
    subst hfa
    dsimp only
    rw [h5]
    dsimp only
    have e : boreOf edges a.m a.cp a (tempOf edges (t.par a.m a.cp) (t.iInlet a.m) a) = pureBore edges t a := by
      unfold boreOf tempOf pureBore UTube.heatA UTube.heatB UTube.tempA UTube.tempB
      rfl
    rw [e]
    exact ⟨rfl, ⟨h2.pipe, h2.mv, h2.s3, h2.s4, good_new _ ha, h2.s7, h2.f⟩, Or.inr h4⟩

theorem callFluid_inv {a : Args} (ha : S a) {s : St} (hs : Inv edges t S s) :
    (callFluid edges a s).1 = some (pureFluid edges t a) ∧ Inv edges t S (callFluid edges a s).2 ∧
    ((callFluid edges a s).2.f = s.f ∨ (callFluid edges a s).2.f = some (a.m, a.cp)) := by
  unfold callFluid
  cases h : lookup s.s7 a with
  | some v =>
    obtain ⟨k, h1, h2⟩ := lookup_some h
    obtain ⟨rfl, h4⟩ := hs.s7 k v h1
    exact ⟨by rw [fluid_same hS ha h4 h2], hs, Or.inl rfl⟩
  | none =>
    have hs' : Inv edges t S { s with f := some (a.m, a.cp) } := ⟨hs.pipe, hs.mv, hs.s3, hs.s4, hs.s6, hs.s7, by simp⟩
    obtain ⟨h1, h2, h3⟩ := callOutlet_inv hS ha hs'
    have h6 : (callOutlet edges a { s with f := some (a.m, a.cp) }).2.f = some (a.m, a.cp) := by
      rcases h3 with h3 | h3 <;> exact h3
    dsimp only
    rw [h6]
    dsimp only
    rw [h1]
    have e : fluidOf a.m a.cp (pureOutlet edges t a) = pureFluid edges t a := rfl
    rw [e]
    exact ⟨rfl, ⟨h2.pipe, h2.mv, h2.s3, h2.s4, h2.s6, good_new _ ha, by simp⟩, Or.inr rfl⟩

theorem callInlet_inv {a : Args} (ha : S a) {s : St} (hs : Inv edges t S s) :
    (callInlet edges a s).1 = pureInlet edges t a ∧ Inv edges t S (callInlet edges a s).2 ∧
    ((callInlet edges a s).2.f = s.f ∨ (callInlet edges a s).2.f = some (a.m, a.cp)) := by
  unfold callInlet
  cases h : lookup s.s3 a with
  | some v =>
    obtain ⟨k, h1, h2⟩ := lookup_some h
    obtain ⟨h3, h4⟩ := hs.s3 k v h1
    refine ⟨?_, hs, Or.inl rfl⟩
    have e : pureInlet edges t a = some v := by
      rw [← h3]; unfold pureInlet; rw [fluid_same hS ha h4 h2]
    exact e.symm
  | none =>
    obtain ⟨h1, h2, h3⟩ := callFluid_inv hS ha hs
    dsimp only
    have e : ((callFluid edges a s).1.bind invOf) = pureInlet edges t a := by rw [h1]; exact invOf_eq edges t a
    rw [e]
    cases hp : pureInlet edges t a with
    | none => exact ⟨rfl, h2, h3⟩
    | some v =>
      refine ⟨rfl, ⟨h2.pipe, h2.mv, ?_, h2.s4, h2.s6, h2.s7, h2.f⟩, h3⟩
      intro k w hkw
      simp only [Option.some.injEq, Prod.mk.injEq] at hkw
      obtain ⟨rfl, rfl⟩ := hkw
      exact ⟨hp, ha⟩

omit hS in
theorem new_inv : Inv edges t S (new t) :=
  ⟨rfl, fun _ _ h => by simp [new] at h, fun _ _ h => by simp [new] at h, fun _ _ h => by simp [new] at h,
    fun _ _ h => by simp [new] at h, fun _ _ h => by simp [new] at h, fun h => by simp [new] at h⟩

/-- The invariant after any history; the last formatted flow rate is one of the history. -/
theorem run_inv (t : UTube) (hist : List Call) (hw : ∀ c ∈ hist, c.within S) :
    Inv edges (pipeAfter t hist) S (run edges t hist) ∧
    ∀ f, (run edges t hist).f = some f → ∃ a, S a ∧ f = (a.m, a.cp) := by
  induction hist using List.reverseRecOn with
  | nil => exact ⟨new_inv, fun f h => by simp [run, new] at h⟩
  | append_singleton hist c ih =>
    obtain ⟨hi, hf⟩ := ih fun c hc => hw c (List.mem_append_left _ hc)
    have hc := hw c (by simp)
    have hrun : run edges t (hist ++ [c]) = step edges (run edges t hist) c := by simp [run, List.foldl_append]
    have hfin : ∀ a, S a → ∀ x : Option (ℝ × ℝ), (x = (run edges t hist).f ∨ x = some (a.m, a.cp)) →
        ∀ f, x = some f → ∃ a, S a ∧ f = (a.m, a.cp) := by
      rintro a ha x (rfl | rfl) f hx
      · exact hf f hx
      · simp only [Option.some.injEq] at hx; exact ⟨a, ha, hx.symm⟩
    rw [hrun]
    cases c with
    | inlet a =>
      rw [show pipeAfter t (hist ++ [.inlet a]) = pipeAfter t hist by simp [pipeAfter, List.foldl_append]]
      obtain ⟨-, h2, h3⟩ := callInlet_inv hS hc hi
      exact ⟨h2, hfin a hc _ h3⟩
    | outlet a =>
      rw [show pipeAfter t (hist ++ [.outlet a]) = pipeAfter t hist by simp [pipeAfter, List.foldl_append]]
      obtain ⟨-, h2, h3⟩ := callOutlet_inv hS hc hi
      exact ⟨h2, hfin a hc _ h3⟩
    | temp a =>
      rw [show pipeAfter t (hist ++ [.temp a]) = pipeAfter t hist by simp [pipeAfter, List.foldl_append]]
      obtain ⟨h2, h3, -⟩ := callTemp_inv hS hc hi
      exact ⟨h2, hfin a hc _ h3⟩
    | bore a =>
      rw [show pipeAfter t (hist ++ [.bore a]) = pipeAfter t hist by simp [pipeAfter, List.foldl_append]]
      obtain ⟨-, h2, h3⟩ := callBore_inv hS hc hi
      exact ⟨h2, hfin a hc _ h3⟩
    | fluid a =>
      rw [show pipeAfter t (hist ++ [.fluid a]) = pipeAfter t hist by simp [pipeAfter, List.foldl_append]]
      obtain ⟨-, h2, h3⟩ := callFluid_inv hS hc hi
      exact ⟨h2, hfin a hc _ h3⟩
    | update t' =>
      rw [show pipeAfter t (hist ++ [.update t']) = t' by simp [pipeAfter, List.foldl_append]]
      refine ⟨⟨rfl, ?_, ?_, ?_, ?_, ?_, ?_⟩, fun f h => hf f h⟩ <;> first | (intro k v h; simp [step] at h) | (intro h; simp [step] at h)

/-! ### Theorems -/

/-- **C42** (coefficients).  After any history of calls, with any flow rates, directions, segments and changes of the thermal resistances,
inlet, outlet and heat extraction rate coefficients are those of the arguments and the current pipe: nothing stored is mistaken for another case. -/
theorem history_coefficients_partial (t : UTube) (hist : List Call) (hw : ∀ c ∈ hist, c.within S) (a : Args) (ha : S a) :
    (callInlet edges a (run edges t hist)).1 = pureInlet edges (pipeAfter t hist) a ∧
    (callOutlet edges a (run edges t hist)).1 = pureOutlet edges (pipeAfter t hist) a ∧
    (callBore edges a (run edges t hist)).1 = some (pureBore edges (pipeAfter t hist) a) ∧
    (callFluid edges a (run edges t hist)).1 = some (pureFluid edges (pipeAfter t hist) a) := by
  obtain ⟨hi, -⟩ := run_inv (edges := edges) hS t hist hw
  exact ⟨(callInlet_inv hS ha hi).1, (callOutlet_inv hS ha hi).1, (callBore_inv hS ha hi).1, (callFluid_inv hS ha hi).1⟩

/-- **C42** (inlet).  After any history, the inlet temperature of a required fluid heat extraction rate exists and the pipe extracts that heat with it. -/
theorem history_inlet_heat_partial (t : UTube) (hist : List Call) (hw : ∀ c ∈ hist, c.within S) (a : Args) (ha : S a) (hv : (pipeAfter t hist).Valid) (hm : a.m ≠ 0)
    (hc : 0 < a.cp) (Q : ℝ) (Tb : ℕ → ℝ) :
    ∃ v, (callInlet edges a (run edges t hist)).1 = some v ∧
      (pipeAfter t hist).fluidHeat (edges a.n a.ratios) a.n a.m a.cp (v.1 * Q + ∑ u ∈ Finset.range a.n, v.2 u * Tb u) Tb = Q := by
  obtain ⟨Tin, h1, h2⟩ := UTube.inlet_roundtrip hv hm hc (edges a.n a.ratios) a.n Q Tb
  unfold UTube.inletT at h1
  split_ifs at h1 with h0
  rw [(history_coefficients_partial hS t hist hw a ha).1, pureInlet, if_neg (show (pureFluid edges (pipeAfter t hist) a).1 ≠ 0 from h0)]
  refine ⟨_, rfl, ?_⟩
  refine Eq.trans ?_ h2
  congr 1
  rw [← Option.some.inj h1]
  simp only [pureFluid, div_eq_inv_mul, mul_one, mul_neg]

/-- **C42** (temperatures).  Temperature coefficients do not depend on the history if all flow rates have the same direction
(or the pipe is not reversible). -/
theorem history_temperature_partial (t : UTube) (hist : List Call) (hw : ∀ c ∈ hist, c.within S) (a : Args) (ha : S a)
    (hdir : ∀ b, S b → (pipeAfter t hist).isReversed b.m = (pipeAfter t hist).isReversed a.m) :
    (callTemp edges a (run edges t hist)).1 = some (pureTemp edges (pipeAfter t hist) a) := by
  obtain ⟨hi, hf⟩ := run_inv (edges := edges) hS t hist hw
  obtain ⟨-, h2, f, h3, h4⟩ := callTemp_inv hS ha hi
  rw [h4]
  have hr : (pipeAfter t hist).isReversed f.1 = (pipeAfter t hist).isReversed a.m := by
    rcases h2 with h2 | h2
    · rw [h3] at h2
      obtain ⟨b, hb, hfb⟩ := hf f h2.symm
      rw [hfb]; exact hdir b hb
    · rw [h3, Option.some.injEq] at h2
      rw [h2]
  congr 1
  funext z
  unfold tempOf pureTemp
  have hi0 : (pipeAfter t hist).iInlet f.1 = (pipeAfter t hist).iInlet a.m := by unfold UTube.iInlet; rw [hr]
  rw [hi0]
  rfl

omit hS

/-- Arguments of the witness: flow rates 1 and -1. -/
def aPos : Args := ⟨1, 1, 1, none⟩
def aNeg : Args := ⟨-1, 1, 1, none⟩

theorem near_self {x : ℝ} (hx : x ≠ 0) : near x x = true := by
  unfold near
  have := abs_pos.mpr hx
  simp only [sub_self, abs_zero, decide_eq_true_eq]
  positivity

theorem hit_pos : hit aPos aPos = true := by
  unfold hit aPos; simp [near_self, ratiosNear]

theorem hit_neg : hit aNeg aNeg = true := by
  unfold hit aNeg; simp [near_self, ratiosNear]

theorem hit_pos_neg : hit aPos aNeg = false ∧ hit aNeg aPos = false := by
  unfold hit aPos aNeg near
  constructor <;> norm_num

/-- Non-vacuity of `Apart`: calls with both flow directions. -/
theorem apart_sample : Apart fun a => a = aPos ∨ a = aNeg := by
  constructor
  · rintro a (rfl | rfl) <;> simp [aPos, aNeg]
  · rintro k a (rfl | rfl) (rfl | rfl) h
    · exact ⟨rfl, rfl, rfl⟩
    · have := h.mcp; norm_num [aPos, aNeg] at this
    · have := h.mcp; norm_num [aPos, aNeg] at this
    · exact ⟨rfl, rfl, rfl⟩

/-- The history of the witness: outlet temperature with reversed flow, temperatures with forward flow, fluid heat extraction rate with
reversed flow. -/
def badHist : List Call := [.outlet aNeg, .temp aPos, .fluid aNeg]

/-- The coefficients are right after this history. -/
example (t : UTube) : (callOutlet edges aPos (run edges t badHist)).1 = pureOutlet edges t aPos :=
  (history_coefficients_partial apart_sample t badHist (by intro c hc; fin_cases hc <;> simp [Call.within]) aPos (Or.inl rfl)).2.1

/-- The heat of the inlet temperature after this history, for a valid U-tube. -/
example (t : UTube) (hv : t.Valid) (Q : ℝ) (Tb : ℕ → ℝ) : ∃ v, (callInlet edges aPos (run edges t badHist)).1 = some v ∧
    t.fluidHeat (edges 1 none) 1 1 1 (v.1 * Q + ∑ u ∈ Finset.range 1, v.2 u * Tb u) Tb = Q :=
  history_inlet_heat_partial apart_sample t badHist (by intro c hc; fin_cases hc <;> simp [Call.within]) aPos (Or.inl rfl) hv (by simp [aPos]) (by simp [aPos]) Q Tb

/-- After the history, the temperatures with forward flow use the pipe order of reversed flow. -/
theorem bad_temp (t : UTube) (hr : t.reversible = true) :
    (callTemp edges aPos (run edges t badHist)).1 = some (tempOf edges (t.par 1 1) 1 aPos) := by
  have hrev : t.isReversed (-1) = true := by unfold UTube.isReversed; simp [hr]
  simp [run, badHist, step, new, callOutlet, callTemp, callFluid, checkMv, lookup, hit_pos, hit_neg, hit_pos_neg.2]
  simp [aPos, aNeg, UTube.iInlet, hrev]

/-- **C42** (violation).  The temperatures of a single U-tube depend on earlier calls: after the history above the temperature at the
inlet pipe at the top of the borehole is not the inlet temperature. -/
theorem history_temperature_fails : ∃ (t : UTube) (hist : List Call), (∀ c ∈ hist, c.within fun a => a = aPos ∨ a = aNeg) ∧ t.Valid ∧
    (callTemp (fun _ _ k => 100 * (k : ℝ)) aPos (run (fun _ _ k => 100 * (k : ℝ)) t hist)).1
      ≠ (callTemp (fun _ _ k => 100 * (k : ℝ)) aPos (new t)).1 := by
  obtain ⟨t, ht⟩ : ∃ t, t = singleUTube (fun i j => if i = j then 1 else 2) 100 true := ⟨_, rfl⟩
  have hv : t.Valid := by
    rw [ht]
    exact UTube.singleUTube_valid true (by norm_num) (fun i j => by split_ifs <;> norm_num) (by simp)
  refine ⟨t, badHist, ?_, hv, ?_⟩
  · intro c hc
    fin_cases hc <;> simp [Call.within]
  · rw [bad_temp t (by rw [ht]; rfl)]
    have hnew : (callTemp (fun _ _ k => 100 * (k : ℝ)) aPos (new t)).1 = some (pureTemp (fun _ _ k => 100 * (k : ℝ)) t aPos) := by
      have := history_temperature_partial (edges := fun _ _ k => 100 * (k : ℝ)) (S := fun a => a = aPos)
        ⟨by rintro a rfl; simp [aPos], by rintro k a rfl rfl _; exact ⟨rfl, rfl, rfl⟩⟩ t [] (by simp) aPos rfl (by rintro b rfl; rfl)
      simpa [run, pipeAfter] using this
    rw [hnew]
    intro h
    simp only [Option.some.injEq] at h
    -- temperature of pipe 0 at the top
    have h0 := congrFun (congrArg Prod.fst (congrFun h 0)) 0
    have hrev : t.isReversed 1 = false := by unfold UTube.isReversed; simp
    simp [tempOf, pureTemp, UTube.tempA, UTube.iInlet, aPos, hrev] at h0
    have hp := UTube.par_passive hv (m := 1) (cp := 1) one_ne_zero one_pos
    have hz : Edges (fun k => 100 * (k : ℝ)) 1 (t.par 1 1).H := by
      show Edges (fun k => 100 * (k : ℝ)) 1 t.H
      rw [ht]
      refine ⟨by norm_num, by norm_num, by norm_num [singleUTube], ?_⟩
      intro i j hij _
      have : (i : ℝ) ≤ j := by exact_mod_cast hij
      linarith
    obtain ⟨sol, hout⟩ := UPar.profile_solves hp hz 1 (fun _ => 0)
    have h1 : (t.par 1 1).inDown 0 = 1 := by simpa [UPar.downT] using sol.inlet
    have h2 : (t.par 1 1).inUp 0 = (t.par 1 1).outA := by simpa [UPar.upT, UPar.outletT] using hout
    have h3 := UTube.outA_lt hv (m := 1) (cp := 1) one_ne_zero one_pos
    rw [h1, h2] at h0
    linarith

end Verif.Pipe.Cache
