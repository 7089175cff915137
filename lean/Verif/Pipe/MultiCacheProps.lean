import Verif.Pipe.MultiCacheModel
import Verif.Pipe.CacheProps
import Verif.Pipe.MultiProps
import Verif.Pipe.MultiEig

/-!
# Property C42 for several U-tubes: results do not depend on earlier calls

In parallel, in series or independent: unlike a single U-tube (`Verif.Pipe.Cache.history_temperature_fails`), coefficients and temperatures after any history are those of a new object.
-/

noncomputable section

namespace Verif.Pipe.MultiCache

open Matrix Multi

section
variable {A F G R MV Hd O T B Q I : Type} (M : Machine A F G R MV Hd O T B Q I)

/-- The resistances after a call. -/
def resStep (r : R) : Call A R → R
  | .update r' => r'
  | _ => r

/-- The resistances after a history. -/
def resAfter (r : R) (hist : List (Call A R)) : R := hist.foldl resStep r

/-- The arguments of a call are in `S`, the resistances in `W`. -/
def Call.within (S : A → Prop) (W : R → Prop) : Call A R → Prop
  | .inlet a | .outlet a | .temp a | .bore a | .fluid a => S a
  | .update r => W r

/-! ### Results of a computation without a store -/

def pureOut (r : R) (a : A) : Option O := M.outOf (M.headOf (M.fmt a)) (M.fmt a) (M.mvOf r (M.fmt a)) (M.seg a)
def pureTemp (r : R) (a : A) : Option T := M.tempOf (M.headOf (M.fmt a)) (M.fmt a) (M.mvOf r (M.fmt a)) (M.seg a)
def pureBore (r : R) (a : A) : Option B := (pureTemp M r a).map (M.boreOf (M.fmt a) (M.seg a))
def pureFluid (r : R) (a : A) : Option Q := (pureOut M r a).map (M.fluidOf (M.fmt a))
def pureInlet (r : R) (a : A) : Option I := (pureFluid M r a).bind M.invOf

/-- Stored values are those of the arguments stored with them. -/
def Good {X : Type} (S : A → Prop) (s : Option (A × X)) (g : A → Option X) : Prop := ∀ k v, s = some (k, v) → g k = some v ∧ S k

/-- Arguments in `S` that hit each other are the same for the methods, and the outlet temperatures exist. -/
structure Fit (S : A → Prop) (W : R → Prop) : Prop where
  same : ∀ k a, S k → S a → M.hit k a = true → M.fmt k = M.fmt a ∧ M.seg k = M.seg a
  out : ∀ r a, W r → S a → ∃ o, pureOut M r a = some o

variable {M} {S : A → Prop} {W : R → Prop}

structure Base (M : Machine A F G R MV Hd O T B Q I) (S : A → Prop) (r : R) (s : St A F R MV Hd O B Q I) : Prop where
  res : s.R = r
  mv : Good S s.mv fun a => some (M.mvOf r (M.fmt a))
  s1 : Good S s.s1 fun a => some (M.headOf (M.fmt a))
  s3 : Good S s.s3 (pureInlet M r)
  s4 : Good S s.s4 (pureOut M r)
  s6 : Good S s.s6 (pureBore M r)
  s7 : Good S s.s7 (pureFluid M r)

/-- Model variables and outlet coefficients are stored for the same flow rates. -/
def Keys (M : Machine A F G R MV Hd O T B Q I) (s : St A F R MV Hd O B Q I) : Prop := ∀ k4 v4, s.s4 = some (k4, v4) → ∃ k v, s.mv = some (k, v) ∧ M.fmt k = M.fmt k4

/-- The attributes are those of the model variables. -/
def Sync (M : Machine A F G R MV Hd O T B Q I) (s : St A F R MV Hd O B Q I) : Prop := ∀ k v, s.mv = some (k, v) → s.f = some (M.fmt k)

/-- Attributes and model variables are those of `a`. -/
structure At (M : Machine A F G R MV Hd O T B Q I) (a : A) (s : St A F R MV Hd O B Q I) : Prop where
  f : s.f = some (M.fmt a)
  mv : ∃ k v, s.mv = some (k, v) ∧ M.fmt k = M.fmt a

theorem lookup_some {X : Type} {s : Option (A × X)} {a : A} {v : X} (h : lookup M s a = some v) : ∃ k, s = some (k, v) ∧ M.hit k a = true := by
  unfold lookup at h
  cases s with
  | none => cases h
  | some kv =>
    obtain ⟨k, w⟩ := kv
    dsimp only at h
    split_ifs at h with hh
    cases h
    exact ⟨k, rfl, hh⟩

theorem good_some {X : Type} {a : A} {v : X} {g : A → Option X} (ha : S a) (h : g a = some v) : Good S (some (a, v)) g := by
  intro k w e
  cases e
  exact ⟨h, ha⟩

theorem At.sync {a : A} {s : St A F R MV Hd O B Q I} (h : At M a s) : Sync M s := by
  obtain ⟨k, v, h1, h2⟩ := h.mv
  intro k' v' h'
  rw [h1] at h'
  cases h'
  rw [h.f, h2]

variable {r : R} (hF : Fit M S W) {a : A} (ha : S a) (hr : W r)
include hF ha

/-- A value found in the store is that of the arguments. -/
theorem good_hit {X : Type} {s : Option (A × X)} {v : X} {g : A → Option X} (hs : Good S s g) (hg : ∀ k, M.fmt k = M.fmt a → M.seg k = M.seg a → g k = g a)
    (h : lookup M s a = some v) : g a = some v := by
  obtain ⟨k, h1, h2⟩ := lookup_some h
  obtain ⟨h3, h4⟩ := hs k v h1
  obtain ⟨h5, h6⟩ := hF.same k a h4 ha h2
  rw [← hg k h5 h6, h3]

theorem checkMv_spec {s : St A F R MV Hd O B Q I} (hb : Base M S r s) (hf : s.f = some (M.fmt a) ∨ Sync M s) :
    Base M S r (checkMv M a s) ∧ At M a (checkMv M a s) ∧ (checkMv M a s).s4 = s.s4 := by
  unfold checkMv
  cases h : lookup M s.mv a with
  | some v =>
    obtain ⟨k, h1, h2⟩ := lookup_some h
    have h3 := (hF.same k a (hb.mv k v h1).2 ha h2).1
    refine ⟨hb, ⟨?_, k, v, h1, h3⟩, rfl⟩
    rcases hf with hf | hf
    · exact hf
    · rw [hf k v h1, h3]
  | none =>
    refine ⟨⟨hb.res, good_some ha (by rw [hb.res]), hb.s1, hb.s3, hb.s4, hb.s6, hb.s7⟩, ⟨rfl, a, _, rfl, rfl⟩, rfl⟩

theorem head_spec {s : St A F R MV Hd O B Q I} (hb : Base M S r s) (hf : s.f = some (M.fmt a) ∨ Sync M s) :
    (head M a s).1 = some (M.headOf (M.fmt a)) ∧ Base M S r (head M a s).2 ∧ ((head M a s).2.f = some (M.fmt a) ∨ Sync M (head M a s).2) ∧ (head M a s).2.s4 = s.s4 := by
  unfold head
  cases h : lookup M s.s1 a with
  | some v =>
    have h1 := good_hit hF ha hb.s1 (fun k h1 _ => by rw [h1]) h
    exact ⟨h1.symm, hb, hf, rfl⟩
  | none =>
    obtain ⟨h1, h2, h3⟩ := checkMv_spec hF ha hb hf
    dsimp only
    rw [h2.f]
    dsimp only
    refine ⟨rfl, ⟨h1.res, h1.mv, good_some ha rfl, h1.s3, h1.s4, h1.s6, h1.s7⟩, .inl rfl, h3⟩

theorem parts_spec {s : St A F R MV Hd O B Q I} (hb : Base M S r s) (hf : s.f = some (M.fmt a) ∨ Sync M s) :
    (parts M a s).1 = some (M.headOf (M.fmt a), M.fmt a, M.mvOf r (M.fmt a)) ∧ Base M S r (parts M a s).2 ∧ At M a (parts M a s).2 ∧ (parts M a s).2.s4 = s.s4 := by
  obtain ⟨h1, h2, h3, h4⟩ := head_spec hF ha hb hf
  obtain ⟨h5, h6, h7⟩ := checkMv_spec hF ha h2 h3
  unfold parts
  dsimp only
  refine ⟨?_, h5, h6, h7.trans h4⟩
  obtain ⟨k, v, h8, h9⟩ := h6.mv
  have h10 := (h5.mv k v h8).1
  dsimp only at h10
  rw [h1]
  unfold attrs
  rw [h6.f, h8]
  dsimp only [Option.bind_some, Option.map_some]
  cases h10
  rw [h9]

include hr

theorem outlet_spec {s : St A F R MV Hd O B Q I} (hb : Base M S r s) (hk : Keys M s) (hf : s.f = some (M.fmt a) ∨ Sync M s) :
    (callOutlet M a s).1 = pureOut M r a ∧ Base M S r (callOutlet M a s).2 ∧ Keys M (callOutlet M a s).2 ∧ At M a (callOutlet M a s).2 := by
  unfold callOutlet
  cases h : lookup M s.s4 a with
  | some v =>
    have h1 := good_hit hF ha hb.s4 (fun k h1 h2 => by unfold pureOut; rw [h1, h2]) h
    obtain ⟨k4, h2, h3⟩ := lookup_some h
    have h4 := (hF.same k4 a (hb.s4 k4 v h2).2 ha h3).1
    obtain ⟨k, w, h5, h6⟩ := hk k4 v h2
    refine ⟨h1.symm, hb, hk, ?_, k, w, h5, h6.trans h4⟩
    rcases hf with hf | hf
    · exact hf
    · dsimp only
      rw [hf k w h5, h6, h4]
  | none =>
    obtain ⟨h1, h2, h3, h4⟩ := parts_spec hF ha hb hf
    obtain ⟨o, ho⟩ := hF.out r a hr ha
    dsimp only
    rw [h1]
    dsimp only [Option.bind_some]
    have ho' := ho
    unfold pureOut at ho'
    rw [ho']
    dsimp only
    refine ⟨ho.symm, ⟨h2.res, h2.mv, h2.s1, h2.s3, good_some ha ho, h2.s6, h2.s7⟩, ?_, h3.f, h3.mv⟩
    intro k4 v4 e
    cases e
    exact h3.mv

theorem temp_spec {s : St A F R MV Hd O B Q I} (hb : Base M S r s) (hk : Keys M s) (hf : s.f = some (M.fmt a) ∨ Sync M s) :
    (callTemp M a s).1 = pureTemp M r a ∧ Base M S r (callTemp M a s).2 ∧ Keys M (callTemp M a s).2 ∧ At M a (callTemp M a s).2 := by
  obtain ⟨h1, h2, h3, h4⟩ := outlet_spec hF ha hr hb hk hf
  obtain ⟨o, ho⟩ := hF.out r a hr ha
  obtain ⟨h5, h6, h7, h8⟩ := parts_spec hF ha h2 (.inl h4.f)
  unfold callTemp
  dsimp only
  rw [h1, ho]
  dsimp only
  rw [h5]
  refine ⟨rfl, h6, ?_, h7⟩
  intro k4 v4 e
  rw [h8] at e
  obtain ⟨k, v, e1, e2⟩ := h3 k4 v4 e
  obtain ⟨k', v', e3, e4⟩ := h7.mv
  obtain ⟨k0, v0, e5, e6⟩ := h4.mv
  rw [e1] at e5
  cases e5
  exact ⟨k', v', e3, by rw [e4, ← e6, e2]⟩

/-- What holds between calls. -/
structure Inv (M : Machine A F G R MV Hd O T B Q I) (S : A → Prop) (r : R) (s : St A F R MV Hd O B Q I) : Prop where
  base : Base M S r s
  keys : Keys M s
  sync : Sync M s

theorem bore_spec {s : St A F R MV Hd O B Q I} (hi : Inv M S r s) : (callBore M a s).1 = pureBore M r a ∧ Inv M S r (callBore M a s).2 := by
  unfold callBore
  cases h : lookup M s.s6 a with
  | some v =>
    have h1 := good_hit hF ha hi.base.s6 (fun k h1 h2 => by unfold pureBore pureTemp; rw [h1, h2]) h
    exact ⟨h1.symm, hi⟩
  | none =>
    have hb : Base M S r { s with f := some (M.fmt a) } := ⟨hi.base.res, hi.base.mv, hi.base.s1, hi.base.s3, hi.base.s4, hi.base.s6, hi.base.s7⟩
    have hk : Keys M { s with f := some (M.fmt a) } := hi.keys
    obtain ⟨h1, h2, h3, h4⟩ := temp_spec hF ha hr hb hk (.inl rfl)
    dsimp only
    unfold pureBore
    rw [h1]
    cases ht : pureTemp M r a with
    | none => exact ⟨rfl, h2, h3, h4.sync⟩
    | some t =>
      refine ⟨rfl, ⟨h2.res, h2.mv, h2.s1, h2.s3, h2.s4, good_some ha ?_, h2.s7⟩, h3, h4.sync⟩
      unfold pureBore
      rw [ht]
      rfl

theorem fluid_spec {s : St A F R MV Hd O B Q I} (hi : Inv M S r s) : (callFluid M a s).1 = pureFluid M r a ∧ Inv M S r (callFluid M a s).2 := by
  unfold callFluid
  cases h : lookup M s.s7 a with
  | some v =>
    have h1 := good_hit hF ha hi.base.s7 (fun k h1 h2 => by unfold pureFluid pureOut; rw [h1, h2]) h
    exact ⟨h1.symm, hi⟩
  | none =>
    have hb : Base M S r { s with f := some (M.fmt a) } := ⟨hi.base.res, hi.base.mv, hi.base.s1, hi.base.s3, hi.base.s4, hi.base.s6, hi.base.s7⟩
    have hk : Keys M { s with f := some (M.fmt a) } := hi.keys
    obtain ⟨h1, h2, h3, h4⟩ := outlet_spec hF ha hr hb hk (.inl rfl)
    obtain ⟨o, ho⟩ := hF.out r a hr ha
    have hq : pureFluid M r a = some (M.fluidOf (M.fmt a) o) := by unfold pureFluid; rw [ho]; rfl
    dsimp only
    rw [h1, ho]
    dsimp only [Option.bind_some]
    rw [h4.f]
    exact ⟨hq.symm, ⟨h2.res, h2.mv, h2.s1, h2.s3, h2.s4, h2.s6, good_some ha hq⟩, h3, fun k v e => by
      have := h4.sync k v e
      rw [h4.f] at this
      exact this⟩

theorem inlet_spec {s : St A F R MV Hd O B Q I} (hi : Inv M S r s) : (callInlet M a s).1 = pureInlet M r a ∧ Inv M S r (callInlet M a s).2 := by
  unfold callInlet
  cases h : lookup M s.s3 a with
  | some v =>
    have h1 := good_hit hF ha hi.base.s3 (fun k h1 h2 => by unfold pureInlet pureFluid pureOut; rw [h1, h2]) h
    exact ⟨h1.symm, hi⟩
  | none =>
    obtain ⟨h1, h2⟩ := fluid_spec hF ha hr hi
    dsimp only
    rw [h1]
    cases hv : (pureFluid M r a).bind M.invOf with
    | none => exact ⟨hv.symm, h2⟩
    | some v => exact ⟨hv.symm, ⟨h2.base.res, h2.base.mv, h2.base.s1, good_some ha hv, h2.base.s4, h2.base.s6, h2.base.s7⟩, h2.keys, h2.sync⟩

omit ha hr

theorem run_inv {r : R} (hr : W r) (hist : List (Call A R)) (hw : ∀ c ∈ hist, c.within S W) : Inv M S (resAfter r hist) (run M r hist) ∧ W (resAfter r hist) := by
  induction hist using List.reverseRecOn with
  | nil =>
    refine ⟨⟨⟨rfl, ?_, ?_, ?_, ?_, ?_, ?_⟩, ?_, ?_⟩, hr⟩ <;> intro k v h <;> cases h
  | append_singleton hist c ih =>
    obtain ⟨hi, hW⟩ := ih fun c hc => hw c (List.mem_append_left _ hc)
    have hc := hw c (by simp)
    have e1 : run M r (hist ++ [c]) = step M (run M r hist) c := by simp [run]
    have e2 : resAfter r (hist ++ [c]) = resStep (resAfter r hist) c := by simp [resAfter]
    rw [e1, e2]
    cases c with
    | inlet a => exact ⟨(inlet_spec hF hc hW hi).2, hW⟩
    | outlet a =>
      obtain ⟨-, h1, h2, h3⟩ := outlet_spec hF hc hW hi.base hi.keys (.inr hi.sync)
      exact ⟨⟨h1, h2, h3.sync⟩, hW⟩
    | temp a =>
      obtain ⟨-, h1, h2, h3⟩ := temp_spec hF hc hW hi.base hi.keys (.inr hi.sync)
      exact ⟨⟨h1, h2, h3.sync⟩, hW⟩
    | bore a => exact ⟨(bore_spec hF hc hW hi).2, hW⟩
    | fluid a => exact ⟨(fluid_spec hF hc hW hi).2, hW⟩
    | update r' =>
      refine ⟨⟨⟨rfl, ?_, ?_, ?_, ?_, ?_, ?_⟩, ?_, ?_⟩, hc⟩ <;> intro k v h <;> cases h

/-- Any machine: after any history all methods return what they compute without a store. -/
theorem history_pure {r : R} (hr : W r) (hist : List (Call A R)) (hw : ∀ c ∈ hist, c.within S W) (a : A) (ha : S a) :
    (callInlet M a (run M r hist)).1 = pureInlet M (resAfter r hist) a ∧ (callOutlet M a (run M r hist)).1 = pureOut M (resAfter r hist) a ∧
    (callTemp M a (run M r hist)).1 = pureTemp M (resAfter r hist) a ∧ (callBore M a (run M r hist)).1 = pureBore M (resAfter r hist) a ∧
    (callFluid M a (run M r hist)).1 = pureFluid M (resAfter r hist) a := by
  obtain ⟨hi, hW⟩ := run_inv hF hr hist hw
  exact ⟨(inlet_spec hF ha hW hi).1, (outlet_spec hF ha hW hi.base hi.keys (.inr hi.sync)).1, (temp_spec hF ha hW hi.base hi.keys (.inr hi.sync)).1,
    (bore_spec hF ha hW hi).1, (fluid_spec hF ha hW hi).1⟩

end

/-! ### Several U-tubes -/

variable {n ni : ℕ}

/-- Arguments within one part in a million of the arguments of an earlier call `k`. -/
structure Near (k a : Args ni) : Prop where
  mcp : ∀ i, |a.m i * a.cp i - k.m i * k.cp i| < |k.m i * k.cp i| / 1000000
  n : a.n = k.n
  none_iff : a.ratios = none ↔ k.ratios = none
  ratios : ∀ s r, k.ratios = some s → a.ratios = some r → List.Forall₂ (fun y x => |y - x| < |x| / 1000000) r s

/-- A set of arguments with positive heat capacities in which arguments are either the same for the methods (same products of flow rate and heat capacity, same segments) or differ by more
than the tolerance of the store. -/
structure Apart (S : Args ni → Prop) : Prop where
  cp : ∀ a, S a → ∀ i, 0 < a.cp i
  sep : ∀ k a, S k → S a → Near k a → (∀ i, a.m i * a.cp i = k.m i * k.cp i) ∧ a.n = k.n ∧ a.ratios = k.ratios

theorem hitArgs_near {k a : Args ni} (h : hitArgs k a = true) : Near k a := by
  unfold hitArgs at h
  simp only [Bool.and_eq_true, beq_iff_eq, List.all_eq_true, List.mem_ofFn, id] at h
  obtain ⟨⟨h1, h2⟩, h3⟩ := h
  have hc : Cache.hit ⟨1, 1, k.n, k.ratios⟩ ⟨1, 1, a.n, a.ratios⟩ = true := by
    unfold Cache.hit
    simp [Cache.near_self, h2, h3]
  have := Cache.hit_close hc
  exact ⟨fun i => Cache.near_iff.mp (h1 _ ⟨i, rfl⟩), h2, this.none_iff, this.ratios⟩

/-- Only the product of flow rate and heat capacity matters. -/
theorem reversed_product (rev : Bool) {m cp : ℝ} (hc : 0 < cp) : reversed rev (m * cp) = reversed rev m := by
  unfold reversed
  have : m * cp < 0 ↔ m < 0 := by
    constructor
    · intro h
      by_contra hn
      push Not at hn
      nlinarith [mul_nonneg hn hc.le]
    · intro h
      exact mul_neg_of_neg_of_pos h hc
  simp [this]

theorem pipeFlow_product (c : Config) {m cp : ℝ} (hc : 0 < cp) : pipeFlow c n (m * cp) = pipeFlow c n m * cp := by
  unfold pipeFlow
  cases c <;> simp only [abs_mul, abs_of_pos hc]
  ring

theorem mFlowPipe_product (c : Config) {m cp : ℝ} (hc : 0 < cp) (i : P n) : mFlowPipe c n (m * cp) i = mFlowPipe c n m i * cp := by
  have hs : Real.sign (m * cp) = Real.sign m := by
    rcases lt_trichotomy m 0 with h | h | h
    · rw [Real.sign_of_neg h, Real.sign_of_neg (mul_neg_of_neg_of_pos h hc)]
    · simp [h]
    · rw [Real.sign_of_pos h, Real.sign_of_pos (mul_pos h hc)]
  cases i <;> simp only [mFlowPipe, hs, pipeFlow_product c hc] <;> ring

theorem multiple_product (c : Config) (rev : Bool) {m cp : ℝ} (hc : 0 < cp) : multiple c n rev m cp = multiple c n rev (m * cp) 1 := by
  have h : headOut c n m cp (reversed rev m) = headOut c n (m * cp) 1 (reversed rev m) := by
    unfold headOut
    simp only [mFlowPipe_product c hc, mul_one, abs_mul, abs_of_pos hc]
    cases c <;> rfl
  unfold multiple
  simp only [reversed_product rev hc, mFlowPipe_product c hc, mul_one, abs_mul, abs_of_pos hc, h]

theorem independent_product (rev : Bool) {m cp : Fin n → ℝ} (hc : ∀ i, 0 < cp i) : independent n rev m cp = independent n rev (fun i => m i * cp i) fun _ => 1 := by
  unfold independent
  simp only [reversed_product rev (hc _), mul_one, abs_mul, abs_of_pos (hc _), neg_mul]

/-- The borehole of the arguments `a`, computed without a store. -/
def fresh (fmt : (Fin ni → ℝ) → (Fin ni → ℝ) → Conn n ni ni) (eig : Matrix (P n) (P n) ℝ → Eig n) (edges : ℕ → Option (List ℝ) → ℕ → ℝ) (H : ℝ) (Rd : Matrix (P n) (P n) ℝ) (a : Args ni) :
    Bore n ni ni a.n := mkBore a.n (fmt a.m a.cp) Rd (eig (odeA Rd (fmt a.m a.cp).mcp)) (edges a.n a.ratios) H

/-- The methods of a pipe in state `s` return the coefficients of the borehole `b`, for segments between `zu v` and `zu (v + 1)`. -/
structure Returns {fmt : (Fin ni → ℝ) → (Fin ni → ℝ) → Conn n ni ni} {eig : Matrix (P n) (P n) ℝ → Eig n} {edges : ℕ → Option (List ℝ) → ℕ → ℝ} {H : ℝ}
    (s : St (Args ni) (Conn n ni ni) (Matrix (P n) (P n) ℝ) (Matrix (P n) (P n) ℝ × Eig n) (Matrix (Fin n) (Fin ni) ℝ × Matrix (Fin n) (Fin n) ℝ)
      (Coef (Fin ni) ni) (Σ k : ℕ, Fin k → Option ((Fin ni → ℝ) × (Fin k → ℝ))) (Coef (Fin ni) ni) (Coef (Fin ni) ni))
    (a : Args ni) (b : Bore n ni ni a.n) : Prop where
  outlet : ∃ c, b.outletCoef = some c ∧ (callOutlet (tubes fmt eig edges H) a s).1 = some ⟨a.n, c⟩
  temp : ∃ T, (callTemp (tubes fmt eig edges H) a s).1 = some ⟨a.n, T⟩ ∧ ∀ z, T z = b.tempCoef z ∧ ∃ c, b.tempCoef z = some c
  bore : ∃ q, (callBore (tubes fmt eig edges H) a s).1 = some ⟨a.n, q⟩ ∧ ∀ v : Fin a.n, q v = b.heatCoef (edges a.n a.ratios) v ∧ ∃ c, b.heatCoef (edges a.n a.ratios) v = some c
  fluid : ∃ c, b.fluidCoef = some c ∧ (callFluid (tubes fmt eig edges H) a s).1 = some ⟨a.n, c⟩
  inlet : ∀ c, b.fluidCoef = some c → (IsUnit c.1.det → (callInlet (tubes fmt eig edges H) a s).1 = some ⟨a.n, c.1⁻¹, -(c.1⁻¹ * c.2)⟩) ∧
    (¬IsUnit c.1.det → (callInlet (tubes fmt eig edges H) a s).1 = none)

section
variable {fmt : (Fin ni → ℝ) → (Fin ni → ℝ) → Conn n ni ni} {eig : Matrix (P n) (P n) ℝ → Eig n} {edges : ℕ → Option (List ℝ) → ℕ → ℝ} {H : ℝ} {S : Args ni → Prop}
  {W : Matrix (P n) (P n) ℝ → Prop} (hS : Apart S) (hfmt : ∀ m cp m' cp' : Fin ni → ℝ, (∀ i, 0 < cp i) → (∀ i, 0 < cp' i) → (∀ i, m i * cp i = m' i * cp' i) → fmt m cp = fmt m' cp')
  (hreg : ∀ Rd a, W Rd → S a → ∃ X, (fresh fmt eig edges H Rd a).upSolve = some X)
include hS hfmt hreg

theorem tubes_fit : Fit (tubes fmt eig edges H) S W := by
  constructor
  · intro k a hk ha h
    obtain ⟨h1, h2, h3⟩ := hS.sep k a hk ha (hitArgs_near h)
    exact ⟨hfmt _ _ _ _ (hS.cp k hk) (hS.cp a ha) fun i => (h1 i).symm, by simp [tubes, h2, h3]⟩
  · intro Rd a hW ha
    obtain ⟨X, hX⟩ := hreg Rd a hW ha
    have : ∃ c, (fresh fmt eig edges H Rd a).outletCoef = some c := by
      unfold Bore.outletCoef
      rw [hX]
      exact ⟨_, rfl⟩
    obtain ⟨c, hc⟩ := this
    refine ⟨⟨a.n, c⟩, ?_⟩
    show ((fresh fmt eig edges H Rd a).outletCoef).map _ = _
    rw [hc]
    rfl

theorem tubes_history {Rd : Matrix (P n) (P n) ℝ} (hR : W Rd) (hist : List (Call (Args ni) (Matrix (P n) (P n) ℝ))) (hw : ∀ c ∈ hist, c.within S W) (a : Args ni) (ha : S a) :
    Returns (fmt := fmt) (eig := eig) (edges := edges) (H := H) (run (tubes fmt eig edges H) Rd hist) a (fresh fmt eig edges H (resAfter Rd hist) a) := by
  have hF := tubes_fit hS hfmt hreg
  obtain ⟨h1, h2, h3, h4, h5⟩ := history_pure hF hR hist hw a ha
  obtain ⟨-, hW⟩ := run_inv hF hR hist hw
  obtain ⟨X, hX⟩ := hreg _ a hW ha
  obtain ⟨b, hb⟩ : ∃ b, b = fresh fmt eig edges H (resAfter Rd hist) a := ⟨_, rfl⟩
  have ho : ∃ c, b.outletCoef = some c := by
    unfold Bore.outletCoef
    rw [hb, hX]
    exact ⟨_, rfl⟩
  obtain ⟨c, hc⟩ := ho
  have ht : ∀ z, ∃ c, b.tempCoef z = some c := by
    intro z
    unfold Bore.tempCoef
    rw [hb, hX]
    exact ⟨_, rfl⟩
  have e2 : pureOut (tubes fmt eig edges H) (resAfter Rd hist) a = some ⟨a.n, c⟩ := by
    show ((fresh fmt eig edges H (resAfter Rd hist) a).outletCoef).map _ = _
    rw [← hb, hc]
    rfl
  have e3 : pureTemp (tubes fmt eig edges H) (resAfter Rd hist) a = some ⟨a.n, b.tempCoef⟩ := by
    rw [hb]
    unfold pureTemp
    show ((fresh fmt eig edges H (resAfter Rd hist) a).upSolve).map _ = _
    rw [hX]
    rfl
  have hcon : b.conn = fmt a.m a.cp := by rw [hb]; rfl
  have hfl : b.fluidCoef = some (-diagonal b.conn.mcpIn + diagonal b.conn.mcpIn * c.1, diagonal b.conn.mcpIn * c.2) := by
    unfold Bore.fluidCoef
    rw [hc]
    rfl
  have e5 : pureFluid (tubes fmt eig edges H) (resAfter Rd hist) a =
      some ⟨a.n, -diagonal b.conn.mcpIn + diagonal b.conn.mcpIn * c.1, diagonal b.conn.mcpIn * c.2⟩ := by
    unfold pureFluid
    rw [e2, hcon]
    rfl
  rw [← hb]
  refine ⟨⟨c, hc, h2.trans e2⟩, ⟨_, h3.trans e3, fun z => ⟨rfl, ht z⟩⟩, ?_, ⟨_, hfl, h5.trans e5⟩, ?_⟩
  · unfold pureBore at h4
    rw [e3] at h4
    refine ⟨_, h4, fun v => ⟨?_, ?_⟩⟩
    · unfold Bore.heatCoef
      rw [hcon]
      rfl
    · unfold Bore.heatCoef
      obtain ⟨c1, hc1⟩ := ht (edges a.n a.ratios (v + 1))
      obtain ⟨c0, hc0⟩ := ht (edges a.n a.ratios v)
      rw [hc1, hc0]
      exact ⟨_, rfl⟩
  · intro d hd
    rw [hfl] at hd
    cases hd
    unfold pureInlet at h1
    rw [e5] at h1
    constructor
    · intro hu
      rw [h1]
      exact if_pos hu
    · intro hu
      rw [h1]
      exact if_neg hu

/-- The results are those of a new object. -/
theorem tubes_like_new {Rd : Matrix (P n) (P n) ℝ} (hR : W Rd) (hist : List (Call (Args ni) (Matrix (P n) (P n) ℝ))) (hw : ∀ c ∈ hist, c.within S W) (a : Args ni) (ha : S a) :
    (callInlet (tubes fmt eig edges H) a (run (tubes fmt eig edges H) Rd hist)).1 = (callInlet (tubes fmt eig edges H) a { R := resAfter Rd hist }).1 ∧
    (callOutlet (tubes fmt eig edges H) a (run (tubes fmt eig edges H) Rd hist)).1 = (callOutlet (tubes fmt eig edges H) a { R := resAfter Rd hist }).1 ∧
    (callTemp (tubes fmt eig edges H) a (run (tubes fmt eig edges H) Rd hist)).1 = (callTemp (tubes fmt eig edges H) a { R := resAfter Rd hist }).1 ∧
    (callBore (tubes fmt eig edges H) a (run (tubes fmt eig edges H) Rd hist)).1 = (callBore (tubes fmt eig edges H) a { R := resAfter Rd hist }).1 ∧
    (callFluid (tubes fmt eig edges H) a (run (tubes fmt eig edges H) Rd hist)).1 = (callFluid (tubes fmt eig edges H) a { R := resAfter Rd hist }).1 := by
  have hF := tubes_fit hS hfmt hreg
  obtain ⟨h1, h2, h3, h4, h5⟩ := history_pure hF hR hist hw a ha
  obtain ⟨g1, g2, g3, g4, g5⟩ := history_pure hF (run_inv hF hR hist hw).2 [] (by simp) a ha
  exact ⟨h1.trans g1.symm, h2.trans g2.symm, h3.trans g3.symm, h4.trans g4.symm, h5.trans g5.symm⟩

end

/-! ### Theorems -/

/-- The decompositions asked from `np.linalg.eig` and `np.linalg.inv` for physical circuits and the flow rates in `S`. -/
def Decomposes (fmt : (Fin ni → ℝ) → (Fin ni → ℝ) → Conn n ni ni) (eig : Matrix (P n) (P n) ℝ → Eig n) (S : Args ni → Prop) : Prop :=
  ∀ Rd a, Circuit Rd → S a → (eig (odeA Rd (fmt a.m a.cp).mcp)).Of (odeA Rd (fmt a.m a.cp).mcp)

theorem multiple_format (c : Config) (rev : Bool) (m cp m' cp' : Fin 1 → ℝ) (h : ∀ i, 0 < cp i) (h' : ∀ i, 0 < cp' i) (e : ∀ i, m i * cp i = m' i * cp' i) :
    multiple c n rev (m 0) (cp 0) = multiple c n rev (m' 0) (cp' 0) := by rw [multiple_product c rev (h 0), multiple_product c rev (h' 0), e 0]

theorem independent_format (rev : Bool) (m cp m' cp' : Fin n → ℝ) (h : ∀ i, 0 < cp i) (h' : ∀ i, 0 < cp' i) (e : ∀ i, m i * cp i = m' i * cp' i) :
    independent n rev m cp = independent n rev m' cp' := by
  rw [independent_product rev h, independent_product rev h']
  simp only [e]

section
variable {c : Config} {rev : Bool} {eig : Matrix (P n) (P n) ℝ → Eig n} {edges : ℕ → Option (List ℝ) → ℕ → ℝ} {H : ℝ} (hH : 0 < H)
include hH

/-- **C42** (U-tubes in parallel or in series).  After any history of calls, with any flow rates, directions, segments and changes of the thermal resistances, all coefficients, those of
the temperatures too, are those of the arguments and the current resistances, and no exception is raised. -/
theorem multiple_history_partial {S : Args 1 → Prop} (hS : Apart S) (hf : ∀ a, S a → Flowing n rev (a.m 0) (a.cp 0))
    (he : Decomposes (fun m cp => multiple c n rev (m 0) (cp 0)) eig S) {Rd : Matrix (P n) (P n) ℝ} (hR : Circuit Rd) (hist : List (Call (Args 1) (Matrix (P n) (P n) ℝ)))
    (hw : ∀ c ∈ hist, c.within S Circuit) (a : Args 1) (ha : S a) :
    Returns (fmt := fun m cp => multiple c n rev (m 0) (cp 0)) (eig := eig) (edges := edges) (H := H) (run (multipleTubes c rev eig edges H) Rd hist) a
      (fresh (fun m cp => multiple c n rev (m 0) (cp 0)) eig edges H (resAfter Rd hist) a) :=
  tubes_history hS (multiple_format c rev) (fun Rd a hR ha => multiple_regular hR (hf a ha) (he Rd a hR ha) hH) hR hist hw a ha

/-- **C42** (independent U-tubes). -/
theorem independent_history_partial {S : Args n → Prop} (hS : Apart S) (hf : ∀ a, S a → ∀ i, a.m i ≠ 0 ∧ (0 < a.m i ∨ rev = true))
    (he : Decomposes (fun m cp => independent n rev m cp) eig S) {Rd : Matrix (P n) (P n) ℝ} (hR : Circuit Rd) (hist : List (Call (Args n) (Matrix (P n) (P n) ℝ)))
    (hw : ∀ c ∈ hist, c.within S Circuit) (a : Args n) (ha : S a) :
    Returns (fmt := fun m cp => independent n rev m cp) (eig := eig) (edges := edges) (H := H) (run (independentTubes rev eig edges H) Rd hist) a
      (fresh (fun m cp => independent n rev m cp) eig edges H (resAfter Rd hist) a) := by
  refine tubes_history hS (independent_format rev) (fun Rd a hR ha => ?_) hR hist hw a ha
  have hw : ∀ i, 0 < |a.m i| * a.cp i := fun i => mul_pos (abs_pos.mpr (hf a ha i).1) (hS.cp a ha i)
  have hu := solve_regular (he Rd a hR ha) hR.pos hR.symm (independent_aligned (fun i => (hf a ha i).1) fun i => (hf a ha i).2) hw hH (by
    intro x
    have hc0 : (independent n rev a.m a.cp).cfu = 0 := rfl
    rw [hc0]
    refine Finset.sum_nonpos fun i _ => ?_
    rw [Matrix.zero_mulVec]
    have := mul_nonneg (hw i).le (sq_nonneg (x i))
    simp only [Pi.zero_apply]
    nlinarith)
  unfold Bore.upSolve solve
  exact ⟨_, if_pos hu⟩

/-- **C42, C61** (U-tubes in parallel or in series).  After any history the temperatures in the pipes and at the outlet are the unique solution of the energy balance of the fluid for the
arguments of the call. -/
theorem multiple_history_profile_partial {S : Args 1 → Prop} (hS : Apart S) (hf : ∀ a, S a → Flowing n rev (a.m 0) (a.cp 0))
    (he : Decomposes (fun m cp => multiple c n rev (m 0) (cp 0)) eig S) {Rd : Matrix (P n) (P n) ℝ} (hR : Circuit Rd) (hist : List (Call (Args 1) (Matrix (P n) (P n) ℝ)))
    (hw : ∀ c ∈ hist, c.within S Circuit) (a : Args 1) (ha : S a) (hz : Edges (edges a.n a.ratios) a.n H) (Tin : ℝ) (Tb : Fin a.n → ℝ) :
    ∃ C D T Tout, (callTemp (multipleTubes c rev eig edges H) a (run (multipleTubes c rev eig edges H) Rd hist)).1 = some ⟨a.n, C⟩ ∧
      (callOutlet (multipleTubes c rev eig edges H) a (run (multipleTubes c rev eig edges H) Rd hist)).1 = some ⟨a.n, D⟩ ∧
      (∀ z, ∃ d, C z = some d ∧ d.1 *ᵥ (fun _ => Tin) + d.2 *ᵥ Tb = T z) ∧ D.1 *ᵥ (fun _ => Tin) + D.2 *ᵥ Tb = (fun _ => Tout) ∧
      MSol c (reversed rev (a.m 0)) (pipeFlow c n (a.m 0) * a.cp 0) (resAfter Rd hist) (edges a.n a.ratios) H Tin Tb T Tout ∧
      ∀ T' Tout', MSol c (reversed rev (a.m 0)) (pipeFlow c n (a.m 0) * a.cp 0) (resAfter Rd hist) (edges a.n a.ratios) H Tin Tb T' Tout' →
        (∀ z ∈ Set.Icc 0 H, T' z = T z) ∧ Tout' = Tout := by
  have hW := (run_inv (tubes_fit hS (multiple_format c rev) (fun Rd a hR ha => multiple_regular (H := H) (zu := edges a.n a.ratios) hR (hf a ha) (he Rd a hR ha) hH)) hR hist hw).2
  obtain ⟨⟨D, h1, h2⟩, ⟨C, h3, h4⟩, -⟩ := multiple_history_partial (edges := edges) hH hS hf he hR hist hw a ha
  obtain ⟨T, Tout, g1, g2, g3, g4⟩ := multiple_profile hW (hf a ha) (he _ a hW ha) hH hz Tin Tb
  refine ⟨C, D, T, Tout, h3, h2, fun z => ?_, ?_, g3, g4⟩
  · obtain ⟨h5, d, h6⟩ := h4 z
    refine ⟨d, h5.trans h6, ?_⟩
    have := g1 z
    unfold Bore.temperature at this
    rw [show (mkBore a.n (multiple c n rev (a.m 0) (a.cp 0)) (resAfter Rd hist) (eig (odeA (resAfter Rd hist) (multiple c n rev (a.m 0) (a.cp 0)).mcp)) (edges a.n a.ratios) H).tempCoef z = some d
      from h6] at this
    exact Option.some.inj this
  · unfold Bore.outletT at g2
    rw [show (mkBore a.n (multiple c n rev (a.m 0) (a.cp 0)) (resAfter Rd hist) (eig (odeA (resAfter Rd hist) (multiple c n rev (a.m 0) (a.cp 0)).mcp)) (edges a.n a.ratios) H).outletCoef = some D
      from h1] at g2
    exact Option.some.inj g2

end

/-! ### Cases -/

/-- Flow rates 1 and -1. -/
def aPos : Args 1 := ⟨fun _ => 1, fun _ => 1, 1, none⟩
def aNeg : Args 1 := ⟨fun _ => -1, fun _ => 1, 1, none⟩

theorem apart_sample : Apart fun a => a = aPos ∨ a = aNeg := by
  constructor
  · rintro a (rfl | rfl) i <;> simp [aPos, aNeg]
  · rintro k a (rfl | rfl) (rfl | rfl) h
    · exact ⟨fun _ => rfl, rfl, rfl⟩
    · have := h.mcp 0; norm_num [aPos, aNeg] at this
    · have := h.mcp 0; norm_num [aPos, aNeg] at this
    · exact ⟨fun _ => rfl, rfl, rfl⟩

open Classical in
/-- A decomposition of every matrix that has one. -/
def someEig (A : Matrix (P n) (P n) ℝ) : Eig n := if h : ∃ e : Eig n, e.Of A then h.choose else ⟨0, 0, 0⟩

theorem someEig_decomposes (fmt : (Fin ni → ℝ) → (Fin ni → ℝ) → Conn n ni ni) (S : Args ni → Prop) : Decomposes fmt someEig S := by
  intro Rd a hR _
  unfold someEig
  have h := eig_exists hR (fmt a.m a.cp).mcp
  rw [dif_pos h]
  exact h.choose_spec

/-- The history after which the temperatures of a single U-tube are wrong (`Verif.Pipe.Cache.history_temperature_fails`), for two U-tubes in series. -/
example : Returns (fmt := fun m cp => multiple .series 2 true (m 0) (cp 0)) (eig := someEig) (edges := fun _ _ k => 100 * (k : ℝ)) (H := 100)
    (run (multipleTubes .series true someEig (fun _ _ k => 100 * (k : ℝ)) 100) (fun i j => if i = j then 1 else 2) [.outlet aNeg, .temp aPos, .fluid aNeg]) aPos
    (fresh (fun m cp => multiple .series 2 true (m 0) (cp 0)) someEig (fun _ _ k => 100 * (k : ℝ)) 100 (fun i j => if i = j then 1 else 2) aPos) := by
  refine multiple_history_partial (by norm_num) apart_sample ?_ (someEig_decomposes _ _) ⟨?_, ?_⟩ _ ?_ aPos (.inl rfl)
  · rintro a (rfl | rfl)
    · exact ⟨by norm_num, by simp [aPos], by simp [aPos], .inr rfl⟩
    · exact ⟨by norm_num, by simp [aNeg], by simp [aNeg], .inr rfl⟩
  · intro i j
    split_ifs <;> norm_num
  · ext i j
    show (if j = i then (1 : ℝ) else 2) = if i = j then 1 else 2
    simp [eq_comm]
  · intro c hc
    fin_cases hc <;> simp [Call.within]

end Verif.Pipe.MultiCache
