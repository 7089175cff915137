import Verif.Pipe.MemoModel
import Verif.Pipe.PoleProps

/-!
# Property C47: the memo of `thermal_resistances`
-/

noncomputable section

namespace Verif.Pipe.Memo

variable {V : Type}

/-- Specification of "the same arguments within the tolerance": same number of pipes and of multipoles, `b` within a relative `1e-6` of `a` (`1e-5` for the
fluid to pipe resistances), plus `1e-8` for radii and resistances. -/
structure Close (a b : Vals) : Prop where
  pos : List.Forall₂ (fun p q => |p.1 - q.1| ≤ |p.1| / 10 ^ 6 ∧ |p.2 - q.2| ≤ |p.2| / 10 ^ 6) a.pos b.pos
  rOut : List.Forall₂ (fun x y => |x - y| ≤ 1 / 10 ^ 8 + |y| / 10 ^ 6) a.rOut b.rOut
  rb : |a.rb - b.rb| / a.rb < 1 / 10 ^ 6
  ks : |a.ks - b.ks| / a.ks < 1 / 10 ^ 6
  kg : |a.kg - b.kg| / a.kg < 1 / 10 ^ 6
  Rfp : List.Forall₂ (fun x y => |x - y| ≤ 1 / 10 ^ 8 + |y| / 10 ^ 5) a.Rfp b.Rfp
  J : a.J = b.J

theorem forall₂_zip {α β : Type} {P : α → β → Prop} : ∀ {a : List α} {b : List β}, List.Forall₂ P a b ↔ a.length = b.length ∧ ∀ x ∈ a.zip b, P x.1 x.2
  | [], [] => by simp
  | [], _ :: _ => by simp
  | _ :: _, [] => by simp
  | x :: a, y :: b => by
    rw [List.forall₂_cons, forall₂_zip (a := a) (b := b)]
    simp only [List.length_cons, add_left_inj, List.zip_cons_cons, List.mem_cons, forall_eq_or_imp]
    tauto

theorem compare_iff (v w : Vals) : compare v w ↔ Close v w := by
  constructor
  · rintro ⟨⟨h1, h2, h3⟩, ⟨a1, a2, a3, a4, a5, a6⟩, hp⟩
    refine ⟨forall₂_zip.mpr ⟨h1, fun x hx => ?_⟩, forall₂_zip.mpr ⟨h2, fun x hx => ?_⟩, a2, a3, a4, forall₂_zip.mpr ⟨h3, fun x hx => ?_⟩, a6⟩
    · have := hp x hx
      push Not at this
      rw [abs_mul, abs_mul, abs_of_pos (show (0 : ℝ) < 1 / 10 ^ 6 by norm_num)] at this
      exact ⟨by linarith [this.1], by linarith [this.2]⟩
    · have := a1 x hx
      linarith
    · have := a5 x hx
      linarith
  · rintro ⟨hp, h1, a2, a3, a4, h5, a6⟩
    rw [forall₂_zip] at hp h1 h5
    refine ⟨⟨hp.1, h1.1, h5.1⟩, ⟨fun x hx => ?_, a2, a3, a4, fun x hx => ?_, a6⟩, fun x hx => ?_⟩
    · have := h1.2 x hx
      linarith
    · have := h5.2 x hx
      linarith
    · have := hp.2 x hx
      push Not
      rw [abs_mul, abs_mul, abs_of_pos (show (0 : ℝ) < 1 / 10 ^ 6 by norm_num)]
      exact ⟨by linarith [this.1], by linarith [this.2]⟩

/-- Programs that modify no object that they passed to the function before and no returned array. -/
def Safe (ops : List (Op V)) : Prop :=
  (∀ r v, Op.setOut r v ∉ ops) ∧
  ops.Pairwise fun a b => ∀ c, a = .call c → (∀ r l, b = .setPos r l → r ≠ c.pos) ∧ ∀ r l, b = .setArr r l → c.rOut ≠ .array r ∧ c.Rfp ≠ .array r

/-- Specification of the values that a call gives: the positions in the list passed; a number stands for every pipe, an array for its content. -/
def given (M : Mem V) (c : Call) : Vals where
  pos := M.pos c.pos
  rOut := match c.rOut with | .scalar x => (M.pos c.pos).map fun _ => x | .array r => M.arr r
  rb := c.rb
  ks := c.ks
  kg := c.kg
  Rfp := match c.Rfp with | .scalar x => (M.pos c.pos).map fun _ => x | .array r => M.arr r
  J := c.J

theorem vals_eq (M : Mem V) (c : Call) : c.vals M = given M c := by
  obtain ⟨p, a, rb, ks, kg, b, J⟩ := c
  cases a <;> cases b <;> simp [Call.vals, given, Arg.toArr, Arr.read]

/-- The arguments of the calls of a program, by value, at the time of each call; `M` is the memory at the start. -/
def calls (M : Mem V) : List (Op V) → List Vals
  | [] => []
  | .call c :: ops => given M c :: calls M ops
  | .setPos r l :: ops => calls { M with pos := Function.update M.pos r l } ops
  | .setArr r l :: ops => calls { M with arr := Function.update M.arr r l } ops
  | .setOut _ _ :: ops => calls M ops

/-- The part of the memory that the caller fills. -/
def Same (M N : Mem V) : Prop := M.pos = N.pos ∧ M.arr = N.arr

theorem read_same {M N : Mem V} (h : Same M N) (a : Arr) : a.read M = a.read N := by cases a <;> simp [Arr.read, h.2]

theorem vals_same {M N : Mem V} (h : Same M N) (c : Call) : c.vals M = c.vals N := by
  simp only [Call.vals, read_same h, h.1]

theorem saved_same {M N : Mem V} (h : Same M N) (s : Saved) : s.vals M = s.vals N := by
  simp only [Saved.vals, read_same h, h.1]

theorem given_same {M N : Mem V} (h : Same M N) (c : Call) : given M c = given N c := by rw [← vals_eq, vals_same h, vals_eq]

theorem calls_same {M N : Mem V} (h : Same M N) (ops : List (Op V)) : calls M ops = calls N ops := by
  induction ops generalizing M N with
  | nil => rfl
  | cons o ops ih =>
    cases o with
    | call c => simp only [calls, given_same h, ih h]
    | setPos r l => exact ih ⟨by simp [h.1], h.2⟩
    | setArr r l => exact ih ⟨h.1, by simp [h.2]⟩
    | setOut r v => exact ih h

theorem call_same (comp : Vals → Option V) (σ : St V) (c : Call) : Same (call comp σ c).1.mem σ.mem := by
  unfold call
  split
  · exact ⟨rfl, rfl⟩
  · unfold miss
    split <;> exact ⟨rfl, rfl⟩

theorem calls_snoc (comp : Vals → Option V) (σ : St V) (ops : List (Op V)) (c : Call) :
    calls σ.mem (ops ++ [.call c]) = calls σ.mem ops ++ [c.vals (run comp σ ops).mem] := by
  induction ops generalizing σ with
  | nil => exact congrArg (fun v => [v]) (vals_eq σ.mem c).symm
  | cons o ops ih =>
    have e : run comp σ (o :: ops) = run comp (step comp σ o) ops := rfl
    rw [e, List.cons_append]
    cases o with
    | call c' =>
      have hs := call_same comp σ c'
      have := ih (step comp σ (.call c'))
      simp only [step] at this
      rw [calls_same hs, calls_same hs] at this
      simp only [calls, this, step, List.cons_append]
    | setPos r l => exact ih (step comp σ (.setPos r l))
    | setArr r l => exact ih (step comp σ (.setArr r l))
    | setOut r v =>
      have hs : Same (step comp σ (.setOut r v)).mem σ.mem := ⟨rfl, rfl⟩
      have := ih (step comp σ (.setOut r v))
      rw [calls_same hs, calls_same hs] at this
      simpa only [calls] using this

theorem calls_snoc_other (M : Mem V) (ops : List (Op V)) (o : Op V) (ho : ∀ c, o ≠ .call c) : calls M (ops ++ [o]) = calls M ops := by
  induction ops generalizing M with
  | nil => cases o <;> first | rfl | exact absurd rfl (ho _)
  | cons a ops ih => cases a <;> simp [calls, ih]

/-- Invariant: the memo was filled by a call of the program, and still describes the arguments of that call. -/
def Inv (comp : Vals → Option V) (M : Mem V) (ops : List (Op V)) (σ : St V) : Prop :=
  ∀ s, σ.memo = some s → ∃ c n, Op.call c ∈ ops ∧ s.pos = c.pos ∧ s.rOut = c.rOut.toArr n ∧ s.Rfp = c.Rfp.toArr n ∧ s.out < σ.mem.nOut ∧
    s.vals σ.mem ∈ calls M ops ∧ comp (s.vals σ.mem) = some (σ.mem.out s.out)

theorem inv_call {comp : Vals → Option V} {M : Mem V} {ops : List (Op V)} {σ : St V} (h : Inv comp M ops σ) (c : Call) (hc : calls M (ops ++ [.call c]) = calls M ops ++ [c.vals σ.mem]) :
    Inv comp M (ops ++ [.call c]) (call comp σ c).1 := by
  have hkeep : Inv comp M (ops ++ [.call c]) σ := fun s hs => by
    obtain ⟨c', n, h1, h2, h3, h4, h5, h6, h7⟩ := h s hs
    exact ⟨c', n, by simp [h1], h2, h3, h4, h5, by rw [hc]; simp [h6], h7⟩
  unfold call
  split
  · exact hkeep
  · unfold miss
    split
    · exact hkeep
    · rename_i v hv
      intro s hs
      simp only [Option.some.injEq] at hs
      subst hs
      refine ⟨c, _, by simp, rfl, rfl, rfl, Nat.lt_succ_self _, ?_, ?_⟩
      · rw [hc]
        refine List.mem_append_right _ (List.mem_singleton.mpr ?_)
        exact saved_same (N := σ.mem) ⟨rfl, rfl⟩ _
      · simp only [Function.update_self]
        rw [← hv]
        exact congrArg comp (saved_same (N := σ.mem) ⟨rfl, rfl⟩ _)

theorem read_update {M : Mem V} {r : ℕ} {l : List ℝ} {a : Arg} {n : ℕ} (h : a ≠ .array r) :
    (a.toArr n).read { M with arr := Function.update M.arr r l } = (a.toArr n).read M := by
  cases a with
  | scalar x => rfl
  | array k =>
    have : k ≠ r := fun e => h (e ▸ rfl)
    simp [Arg.toArr, Arr.read, this]

theorem inv_run (comp : Vals → Option V) (M : Mem V) (ops : List (Op V)) (hs : Safe ops) : Inv comp M ops (run comp ⟨M, none⟩ ops) := by
  induction ops using List.reverseRecOn with
  | nil => intro s h; exact absurd h (by simp [run])
  | append_singleton ops o ih =>
    obtain ⟨ho, hp⟩ := hs
    rw [List.pairwise_append] at hp
    have ih := ih ⟨fun r v h => ho r v (by simp [h]), hp.1⟩
    have e : run comp ⟨M, none⟩ (ops ++ [o]) = step comp (run comp ⟨M, none⟩ ops) o := by simp [run]
    rw [e]
    cases o with
    | call c => exact inv_call ih c (calls_snoc comp ⟨M, none⟩ ops c)
    | setOut r v => exact absurd (by simp) (ho r v)
    | setPos r l =>
      intro s h
      obtain ⟨c, n, h1, h2, h3, h4, h5, h6, h7⟩ := ih s h
      have hne := (hp.2.2 _ h1 _ (by simp) c rfl).1 r l rfl
      have hv : s.vals (step comp (run comp ⟨M, none⟩ ops) (.setPos r l)).mem = s.vals (run comp ⟨M, none⟩ ops).mem := by
        simp only [step, Saved.vals, h2, Function.update_of_ne hne.symm]
        cases s.rOut <;> cases s.Rfp <;> rfl
      refine ⟨c, n, by simp [h1], h2, h3, h4, h5, ?_, ?_⟩
      · rw [hv, calls_snoc_other _ _ _ (by simp)]; exact h6
      · rw [hv]; exact h7
    | setArr r l =>
      intro s h
      obtain ⟨c, n, h1, h2, h3, h4, h5, h6, h7⟩ := ih s h
      have hne := (hp.2.2 _ h1 _ (by simp) c rfl).2 r l rfl
      have hv : s.vals (step comp (run comp ⟨M, none⟩ ops) (.setArr r l)).mem = s.vals (run comp ⟨M, none⟩ ops).mem := by
        simp only [step, Saved.vals, h3, h4, read_update hne.1, read_update hne.2]
      refine ⟨c, n, by simp [h1], h2, h3, h4, h5, ?_, ?_⟩
      · rw [hv, calls_snoc_other _ _ _ (by simp)]; exact h6
      · rw [hv]; exact h7

/-- **C47** (partial: programs that modify in place no object that they passed to the function and no returned array).  For any computation of the
resistances, from an empty memo and for any program: a call returns the resistances at the current arguments, or at those an earlier call of the program
had at that time, if these are the current ones within the tolerance; only a computation at the current arguments can raise. -/
theorem memo_partial (comp : Vals → Option V) (M : Mem V) (ops : List (Op V)) (hs : Safe ops) (c : Call) :
    let σ := run comp ⟨M, none⟩ ops
    let now := given σ.mem c
    (∀ v, result comp σ c = some v → comp now = some v ∨ ∃ a ∈ calls M ops, Close now a ∧ comp a = some v) ∧
    (result comp σ c = none → comp now = none) ∧
    ((∀ a ∈ calls M ops, ¬ Close now a) → result comp σ c = comp now) := by
  intro σ now
  have hnow : c.vals σ.mem = now := vals_eq _ _
  have hi := inv_run comp M ops hs
  have hm : result comp σ c = comp now ∨ ∃ v, result comp σ c = some v ∧ ∃ a ∈ calls M ops, Close now a ∧ comp a = some v := by
    unfold result call
    cases hh : hit σ c with
    | none =>
      left
      simp only [miss]
      rw [← hnow]
      cases hv : comp (c.vals σ.mem) with
      | none => rfl
      | some v => simp
    | some s =>
      right
      unfold hit at hh
      cases hmemo : σ.memo with
      | none => rw [hmemo] at hh; exact absurd hh (by simp)
      | some s' =>
        rw [hmemo] at hh
        simp only at hh
        split_ifs at hh with hcmp
        cases hh
        obtain ⟨_, _, _, _, _, _, _, h6, h7⟩ := hi s hmemo
        exact ⟨_, rfl, _, h6, hnow ▸ (compare_iff _ _).mp hcmp, h7⟩
  refine ⟨fun v hv => ?_, fun hn => ?_, fun hno => ?_⟩
  · rcases hm with h | ⟨w, h, a, ha, hc, e⟩
    · exact Or.inl (h ▸ hv)
    · rw [h] at hv; cases hv
      exact Or.inr ⟨a, ha, hc, e⟩
  · rcases hm with h | ⟨w, h, _⟩
    · exact h ▸ hn
    · rw [h] at hn; exact absurd hn (by simp)
  · rcases hm with h | ⟨w, h, a, ha, hc, e⟩
    · exact h
    · exact absurd hc (hno a ha)

/-- Non-vacuity: positions modified after a call, in another list than the one passed. -/
example : Safe (V := Unit) [.setPos 0 [(0, 0)], .call ⟨0, .scalar (1 / 10), 1, 1, 3, .scalar 0, 0⟩, .setPos 1 [(1 / 2, 0)], .call ⟨1, .array 0, 1, 1, 3, .scalar 0, 0⟩] := by
  constructor
  · simp
  · simp

/-! ### The full property fails -/

theorem borehole_one (x : ℝ) (hx : x ^ 2 < 1) : ∃ Rd, borehole ⟨[(x, 0)], [1 / 10], 1, 1, 3, [0], 0⟩ =
    some ([[1 / (2 * Real.pi * 3) * (Real.log 10 - 1 / 2 * Real.log (1 - x ^ 2))]], Rd) := by
  have hpi := Real.pi_pos
  have hl : Real.log (1 - x ^ 2) ≤ 0 := Real.log_nonpos (by linarith) (by linarith [sq_nonneg x])
  have h10 : 0 < Real.log 10 := Real.log_pos (by norm_num)
  unfold borehole
  rw [dif_pos (by simp)]
  unfold Pole.Sec.resistances Pole.delta
  set s : Pole.Sec 1 := ⟨fun i => ⟨([(x, (0 : ℝ))].get i).1, ([(x, (0 : ℝ))].get i).2⟩, fun i => [(1 / 10 : ℝ)].get i, 1, 1, 3, fun i => [(0 : ℝ)].get i⟩ with hsdef
  have hR : s.resist 0 0 0 = 1 / (2 * Real.pi * 3) * (Real.log 10 - 1 / 2 * Real.log (1 - x ^ 2)) := by
    have e : s.resist 0 = s.line := if_pos rfl
    have e' : s.line 0 0 = 0 + 1 / (2 * Real.pi * 3) * (Real.log (1 / (1 / 10)) - (3 - 1) / (3 + 1) * Real.log (1 - √(x ^ 2 + 0 ^ 2) ^ 2 / 1 ^ 2)) := rfl
    rw [e, e', show (0 : ℝ) ^ 2 = 0 by norm_num, add_zero, Real.sq_sqrt (sq_nonneg x)]
    norm_num
  have hd : (s.resist 0).det ≠ 0 := by
    rw [Matrix.det_fin_one, hR]
    have : 0 < Real.log 10 - 1 / 2 * Real.log (1 - x ^ 2) := by linarith
    positivity
  refine ⟨List.ofFn fun i => List.ofFn fun j => Pole.recip (Pole.conduct (-(s.resist 0)⁻¹)) i j, ?_⟩
  show Option.map _ (Option.map _ (if (s.resist 0).det = 0 then none else some (Pole.recip (Pole.conduct (-(s.resist 0)⁻¹))))) = _
  rw [if_neg hd]
  simp only [Option.map_some, Option.some.injEq, Prod.mk.injEq]
  refine ⟨?_, rfl⟩
  show List.ofFn (n := 1) (fun i => List.ofFn (n := 1) fun j => s.resist 0 i j) = _
  simp [hR]

/-- Memo after a first call. -/
def Call.save (M : Mem V) (c : Call) : Saved :=
  ⟨c.pos, c.rOut.toArr (M.pos c.pos).length, c.rb, c.ks, c.kg, c.Rfp.toArr (M.pos c.pos).length, c.J, M.nOut⟩

theorem call_first {comp : Vals → Option V} {M : Mem V} {c : Call} {v : V} (hv : comp (c.vals M) = some v) :
    call comp ⟨M, none⟩ c = (⟨{ M with out := Function.update M.out M.nOut v, nOut := M.nOut + 1 }, some (c.save M)⟩, some M.nOut) := by
  simp [call, hit, miss, hv, Call.save]

theorem compare_self (v : Vals) : compare v v :=
  (compare_iff _ _).mpr ⟨List.forall₂_same.mpr fun x _ => by simp only [sub_self, abs_zero]; constructor <;> positivity,
    List.forall₂_same.mpr fun x _ => by simp only [sub_self, abs_zero]; positivity, by simp, by simp, by simp,
    List.forall₂_same.mpr fun x _ => by simp only [sub_self, abs_zero]; positivity, rfl⟩

theorem result_hit {comp : Vals → Option V} {M : Mem V} {s : Saved} {c : Call} (h : compare (c.vals M) (s.vals M)) : result comp ⟨M, some s⟩ c = some (M.out s.out) := by
  have : hit ⟨M, some s⟩ c = some s := by unfold hit; dsimp only; rw [if_pos h]
  simp only [result, call, this, Option.map_some]

/-- **C47** (violated: aliasing).  After an in-place change of the position list, the call returns the resistances at the old positions: the memo holds the
list itself, so that it compares the new positions with themselves. -/
theorem memo_stale_pos : ∃ (M : Mem (List (List ℝ) × List (List ℝ))) (c : Call) (l : List (ℝ × ℝ)),
    let σ := run borehole ⟨M, none⟩ [.call c, .setPos c.pos l]
    ∃ v w, borehole (given σ.mem c) = some v ∧ result borehole σ c = some w ∧ v.1 ≠ w.1 ∧ ∀ a ∈ calls M [.call c], ¬ Close (given σ.mem c) a := by
  obtain ⟨Rd0, h0⟩ := borehole_one 0 (by norm_num)
  obtain ⟨Rd1, h1⟩ := borehole_one (1 / 2) (by norm_num)
  obtain ⟨M, hM⟩ : ∃ M : Mem (List (List ℝ) × List (List ℝ)), M = ⟨fun _ => [(0, 0)], fun _ => [], fun _ => ([], []), 0⟩ := ⟨_, rfl⟩
  obtain ⟨c, hc⟩ : ∃ c : Call, c = ⟨0, .scalar (1 / 10), 1, 1, 3, .scalar 0, 0⟩ := ⟨_, rfl⟩
  have hv0 : c.vals M = ⟨[(0, 0)], [1 / 10], 1, 1, 3, [0], 0⟩ := by subst hM hc; rfl
  obtain ⟨σ, hσ⟩ : ∃ σ, σ = run borehole ⟨M, none⟩ [.call c, .setPos c.pos [(1 / 2, 0)]] := ⟨_, rfl⟩
  have hσ' := hσ
  rw [← hv0] at h0
  simp only [run, List.foldl, step, call_first h0] at hσ'
  have hv1 : c.vals σ.mem = ⟨[(1 / 2, 0)], [1 / 10], 1, 1, 3, [0], 0⟩ := by subst hσ' hM hc; rfl
  have hs1 : (c.save M).vals σ.mem = c.vals σ.mem := by subst hσ' hM hc; rfl
  have hm : σ = ⟨σ.mem, some (c.save M)⟩ := by subst hσ'; rfl
  have ho : σ.mem.out (c.save M).out = ([[1 / (2 * Real.pi * 3) * (Real.log 10 - 1 / 2 * Real.log (1 - 0 ^ 2))]], Rd0) := by
    subst hσ'; simp [Call.save]
  refine ⟨M, c, [(1 / 2, 0)], ?_⟩
  rw [← hσ]
  dsimp only
  rw [← vals_eq]
  refine ⟨_, ([[1 / (2 * Real.pi * 3) * (Real.log 10 - 1 / 2 * Real.log (1 - 0 ^ 2))]], Rd0), by rw [hv1]; exact h1, ?_, ?_, ?_⟩
  · rw [hm, result_hit (by rw [hs1]; exact compare_self _), ho]
  · simp only [ne_eq, List.cons.injEq, and_true]
    intro h
    have hpi := Real.pi_pos
    have h2 := mul_left_cancel₀ (by positivity) h
    norm_num at h2
  · simp only [calls, List.mem_singleton, forall_eq]
    intro h
    have h := h.pos
    rw [hv1, ← vals_eq, hv0] at h
    simp at h
    norm_num at h

/-- **C47** (violated: returned arrays).  A caller that modifies a returned array gets the modified array from the next call with the same arguments. -/
theorem memo_stale_out (comp : Vals → Option V) (M : Mem V) (c : Call) (v w : V) (hv : comp (given M c) = some v) (_hpos : 0 < c.rb ∧ 0 < c.ks ∧ 0 < c.kg) :
    let σ := run comp ⟨M, none⟩ [.call c]
    (call comp ⟨M, none⟩ c).2 = some M.nOut ∧ result comp (step comp σ (.setOut M.nOut w)) c = some w := by
  rw [← vals_eq] at hv
  constructor
  · rw [call_first hv]
  · simp only [run, List.foldl, step, call_first hv]
    rw [result_hit (compare_self _)]
    simp [Call.save]

end Verif.Pipe.Memo
