import Verif.Pipe.AliasModel
import Verif.Pipe.MultiCacheProps
import Verif.Pipe.MultiOneProps
import Verif.Pipe.GetModel

/-!
# Property C118: arguments of a pipe may be reused for the next operating point

Flow rates and heat capacities may be modified in place; arrays of ratios passed to a method may not.
-/

noncomputable section

namespace Verif.Pipe.Alias

open Matrix Multi MultiCache

variable {ni : ℕ}

/-! ### Programs -/

/-- Heap after a statement; resistances after a statement. -/
def heapStep {R : Type} (h : Heap) : Op ni R → Heap
  | .call _ => h
  | .setFlow r x => { h with flow := Function.update h.flow r x }
  | .setRat r l => { h with rat := Function.update h.rat r l }

def heapAfter {R : Type} (h : Heap) (p : List (Op ni R)) : Heap := p.foldl heapStep h

def resOp {R : Type} (r : R) : Op ni R → R
  | .call (.update r') => r'
  | _ => r

def resProg {R : Type} (r : R) (p : List (Op ni R)) : R := p.foldl resOp r

/-- The array `r` is the ratios of the call. -/
def Uses {R : Type} (r : ℕ) : Call (Args ni) R → Prop
  | .inlet a | .outlet a | .temp a | .bore a | .fluid a => a.q = .array r
  | .update _ => False

/-- The content of the arguments of a call is in `S`, the resistances in `W`. -/
def Content {R : Type} (S : MultiCache.Args ni → Prop) (W : R → Prop) (h : Heap) : Call (Args ni) R → Prop
  | .inlet a | .outlet a | .temp a | .bore a | .fluid a => S (a.val h)
  | .update r => W r

/-- A program that calls the methods with contents in `S`, resistances in `W`, and never modifies an array of ratios that it passed before.  Flow rates, heat capacities, lists of ratios
and arrays of ratios not passed yet may be modified at any time. -/
def Careful {R : Type} (S : MultiCache.Args ni → Prop) (W : R → Prop) (h : Heap) (p : List (Op ni R)) : Prop :=
  ∀ p₁ o p₂, p = p₁ ++ o :: p₂ → (∀ c, o = .call c → Content S W (heapAfter h p₁) c) ∧ ∀ r l, o = .setRat r l → ∀ c, .call c ∈ p₁ → ¬Uses r c

section
variable {F G R MV Hd O T B Q I : Type} {M : Machine (MultiCache.Args ni) F G R MV Hd O T B Q I}

theorem pass_val (h : Heap) (a : Args ni) : (pass h a).val h = a.val h := by
  obtain ⟨m, cp, n, q⟩ := a
  cases q <;> rfl

theorem objects_out (h : Heap) (r : R) (k : Key ni) : pureOut (objects M h) r k = pureOut M r (k.val h) := rfl
theorem objects_temp (h : Heap) (r : R) (k : Key ni) : pureTemp (objects M h) r k = pureTemp M r (k.val h) := rfl
theorem objects_bore (h : Heap) (r : R) (k : Key ni) : pureBore (objects M h) r k = pureBore M r (k.val h) := rfl
theorem objects_fluid (h : Heap) (r : R) (k : Key ni) : pureFluid (objects M h) r k = pureFluid M r (k.val h) := rfl
theorem objects_inlet (h : Heap) (r : R) (k : Key ni) : pureInlet (objects M h) r k = pureInlet M r (k.val h) := rfl

/-- Kept arguments with content in `S` whose array is among `U`. -/
def KeyIn (S : MultiCache.Args ni → Prop) (U : ℕ → Prop) (h : Heap) (k : Key ni) : Prop := S (k.val h) ∧ ∀ r, k.q = .array r → U r

variable {S : MultiCache.Args ni → Prop} {W : R → Prop}

theorem objects_fit (hF : Fit M S W) (U : ℕ → Prop) (h : Heap) : Fit (objects M h) (KeyIn S U h) W := by
  constructor
  · intro k a hk ha hh
    have : M.hit (k.val h) (a.val h) = true := by
      have := hh
      simp only [objects, Bool.and_eq_true] at this
      exact this.2
    exact hF.same _ _ hk.1 ha.1 this
  · intro r a hr ha
    exact hF.out r _ hr ha.1

theorem good_change {X : Type} {h h' : Heap} {U U' : ℕ → Prop} (hv : ∀ k : Key ni, (∀ r, k.q = .array r → U r) → k.val h' = k.val h) (hU : ∀ r, U r → U' r)
    {s : Option (Key ni × X)} {g : MultiCache.Args ni → Option X} (hs : Good (KeyIn S U h) s fun k => g (k.val h)) : Good (KeyIn S U' h') s fun k => g (k.val h') := by
  intro k v e
  obtain ⟨h1, h2, h3⟩ := hs k v e
  dsimp only
  rw [hv k h3]
  exact ⟨h1, by unfold KeyIn; rw [hv k h3]; exact ⟨h2, fun r hr => hU r (h3 r hr)⟩⟩

theorem inv_change {h h' : Heap} {U U' : ℕ → Prop} (hv : ∀ k : Key ni, (∀ r, k.q = .array r → U r) → k.val h' = k.val h) (hU : ∀ r, U r → U' r)
    {r : R} {s : St (Key ni) F R MV Hd O B Q I} (hi : Inv (objects M h) (KeyIn S U h) r s) : Inv (objects M h') (KeyIn S U' h') r s := by
  obtain ⟨⟨h1, h2, h3, h4, h5, h6, h7⟩, hk, hy⟩ := hi
  refine ⟨⟨h1, good_change (g := fun a => some (M.mvOf r (M.fmt a))) hv hU h2, good_change (g := fun a => some (M.headOf (M.fmt a))) hv hU h3,
    good_change (g := pureInlet M r) hv hU h4, good_change (g := pureOut M r) hv hU h5, good_change (g := pureBore M r) hv hU h6, good_change (g := pureFluid M r) hv hU h7⟩, ?_, ?_⟩
  · intro k4 v4 e
    obtain ⟨k, v, e1, e2⟩ := hk k4 v4 e
    refine ⟨k, v, e1, ?_⟩
    show M.fmt (k.val h') = M.fmt (k4.val h')
    rw [hv k (h2 k v e1).2.2, hv k4 (h5 k4 v4 e).2.2]
    exact e2
  · intro k v e
    rw [hy k v e]
    show some (M.fmt (k.val h)) = some (M.fmt (k.val h'))
    rw [hv k (h2 k v e).2.2]

theorem call_inv (hF : Fit M S W) {U : ℕ → Prop} {h : Heap} {r : R} (hr : W r) {s : St (Key ni) F R MV Hd O B Q I} (hi : Inv (objects M h) (KeyIn S U h) r s) {c : Call (Key ni) R}
    (hc : c.within (KeyIn S U h) W) : Inv (objects M h) (KeyIn S U h) (resStep r c) (step (objects M h) s c) := by
  have hF' := objects_fit hF U h
  cases c with
  | inlet a => exact (inlet_spec hF' hc hr hi).2
  | outlet a =>
    obtain ⟨-, h1, h2, h3⟩ := outlet_spec hF' hc hr hi.base hi.keys (.inr hi.sync)
    exact ⟨h1, h2, h3.sync⟩
  | temp a =>
    obtain ⟨-, h1, h2, h3⟩ := temp_spec hF' hc hr hi.base hi.keys (.inr hi.sync)
    exact ⟨h1, h2, h3.sync⟩
  | bore a => exact (bore_spec hF' hc hr hi).2
  | fluid a => exact (fluid_spec hF' hc hr hi).2
  | update r' => refine ⟨⟨rfl, ?_, ?_, ?_, ?_, ?_, ?_⟩, ?_, ?_⟩ <;> intro k v h <;> cases h

theorem prog_inv (hF : Fit M S W) {h : Heap} {r : R} (hr : W r) (p : List (Op ni R)) (hp : Careful S W h p) :
    (prog M h r p).1 = heapAfter h p ∧ W (resProg r p) ∧
    Inv (objects M (heapAfter h p)) (KeyIn S (fun r => ∃ c, .call c ∈ p ∧ Uses r c) (heapAfter h p)) (resProg r p) (prog M h r p).2 := by
  induction p using List.reverseRecOn with
  | nil =>
    refine ⟨rfl, hr, ⟨rfl, ?_, ?_, ?_, ?_, ?_, ?_⟩, ?_, ?_⟩ <;> intro k v h <;> cases h
  | append_singleton p o ih =>
    have hp' : Careful S W h p := by
      intro p₁ o' p₂ e
      exact hp p₁ o' (p₂ ++ [o]) (by rw [e]; simp)
    obtain ⟨h1, h2, h3⟩ := ih hp'
    obtain ⟨h4, h5⟩ := hp p o [] rfl
    have e1 : prog M h r (p ++ [o]) = exec M (prog M h r p) o := by simp [prog]
    have e2 : heapAfter h (p ++ [o]) = heapStep (heapAfter h p) o := by simp [heapAfter]
    have e3 : resProg r (p ++ [o]) = resOp (resProg r p) o := by simp [resProg]
    rw [e1, e2, e3]
    have hU : ∀ r, (∃ c, .call c ∈ p ∧ Uses r c) → ∃ c, .call c ∈ p ++ [o] ∧ Uses r c := fun r ⟨c, hc, hu⟩ => ⟨c, List.mem_append_left _ hc, hu⟩
    cases o with
    | setFlow q x =>
      refine ⟨by simp [exec, heapStep, h1, Heap.setFlow], h2, inv_change (fun k _ => ?_) hU h3⟩
      rfl
    | setRat q l =>
      refine ⟨by simp [exec, heapStep, h1, Heap.setRat], h2, inv_change (fun k hk => ?_) hU h3⟩
      obtain ⟨m, cp, n, kq⟩ := k
      cases kq with
      | none => rfl
      | list l => rfl
      | array i =>
        obtain ⟨c, hc, hu⟩ := hk i rfl
        have hne : i ≠ q := by
          rintro rfl
          exact h5 i l rfl c hc hu
        simp [Key.val, Kept.val, heapStep, Function.update_of_ne hne]
    | call c =>
      have hc := h4 c rfl
      have hw : (passCall (heapAfter h p) c).within (KeyIn S (fun r => ∃ c', .call c' ∈ p ++ [.call c] ∧ Uses r c') (heapAfter h p)) W := by
        have key : ∀ a : Args ni, S (a.val (heapAfter h p)) → (∀ r, a.q = .array r → Uses r c) →
            KeyIn S (fun r => ∃ c', .call c' ∈ p ++ [.call c] ∧ Uses r c') (heapAfter h p) (pass (heapAfter h p) a) := by
          intro a ha hu
          refine ⟨by rw [pass_val]; exact ha, fun r hr => ⟨c, by simp, hu r ?_⟩⟩
          obtain ⟨m, cp, n, q⟩ := a
          cases q with
          | none => cases hr
          | list => cases hr
          | array i => cases hr; rfl
        cases c with
        | inlet a => exact key a hc fun r hr => hr
        | outlet a => exact key a hc fun r hr => hr
        | temp a => exact key a hc fun r hr => hr
        | bore a => exact key a hc fun r hr => hr
        | fluid a => exact key a hc fun r hr => hr
        | update r => exact hc
      have hi := call_inv hF h2 (inv_change (fun _ _ => rfl) hU h3) hw
      have hres : resStep (resProg r p) (passCall (heapAfter h p) c) = resOp (resProg r p) (.call c : Op ni R) := by cases c <;> rfl
      rw [hres] at hi
      refine ⟨h1, ?_, ?_⟩
      · cases c with
        | update r' => exact hc
        | _ => exact h2
      · show Inv _ _ _ (step (objects M (prog M h r p).1) (prog M h r p).2 (passCall (prog M h r p).1 c))
        rw [h1]
        exact hi

/-- **C118** (content of the arguments).  An array has the values that the caller last wrote to it, whatever else was written in between. -/
theorem val_content {R : Type} (h : Heap) (p : List (Op ni R)) (r : ℕ) :
    (∀ x, (∀ o ∈ p, ∀ y, o ≠ .setFlow r y) → (Flow.ref r : Flow ni).val (heapAfter (heapStep h (.setFlow r x : Op ni R)) p) = fun i : Fin ni => x i) ∧
    (∀ l, (∀ o ∈ p, ∀ y, o ≠ .setRat r y) → (Rat.array r).val (heapAfter (heapStep h (.setRat r l : Op ni R)) p) = some l ∧
      (Rat.list r).val (heapAfter (heapStep h (.setRat r l : Op ni R)) p) = some l) := by
  have hflow : ∀ (p : List (Op ni R)) (h : Heap), (∀ o ∈ p, ∀ y, o ≠ .setFlow r y) → (heapAfter h p).flow r = h.flow r := by
    intro p
    induction p with
    | nil => intro h _; rfl
    | cons o p ih =>
      intro h hp
      refine (ih (heapStep h o) fun o' ho => hp o' (List.mem_cons_of_mem _ ho)).trans ?_
      cases o with
      | call c => rfl
      | setFlow r' x =>
        have : r ≠ r' := by rintro rfl; exact hp _ List.mem_cons_self x rfl
        simp [heapStep, this]
      | setRat r' l => rfl
  have hrat : ∀ (p : List (Op ni R)) (h : Heap), (∀ o ∈ p, ∀ y, o ≠ .setRat r y) → (heapAfter h p).rat r = h.rat r := by
    intro p
    induction p with
    | nil => intro h _; rfl
    | cons o p ih =>
      intro h hp
      refine (ih (heapStep h o) fun o' ho => hp o' (List.mem_cons_of_mem _ ho)).trans ?_
      cases o with
      | call c => rfl
      | setFlow r' x => rfl
      | setRat r' l =>
        have : r ≠ r' := by rintro rfl; exact hp _ List.mem_cons_self l rfl
        simp [heapStep, this]
  refine ⟨fun x hp => ?_, fun l hp => ?_⟩
  · funext i
    simp [Flow.val, hflow p _ hp, heapStep]
  · simp [Rat.val, hrat p _ hp, heapStep]

/-- Two arrays of flow rates, written one after the other. -/
example (h : Heap) : (Flow.ref 0 : Flow 2).val (heapAfter (heapStep h (.setFlow 0 (fun i => i) : Op 2 Unit)) ([.setFlow 1 fun _ => 7] : List (Op 2 Unit))) = fun i : Fin 2 => ((i : ℕ) : ℝ) :=
  (val_content h _ 0).1 _ (by simp)

/-- Any computations: after a careful program all methods return what they compute from the content of their arguments at the time of the call. -/
theorem prog_pure (hF : Fit M S W) {h : Heap} {r : R} (hr : W r) (p : List (Op ni R)) (hp : Careful S W h p) (a : Args ni) (ha : S (a.val (heapAfter h p))) :
    (callInlet (objects M (heapAfter h p)) (pass (heapAfter h p) a) (prog M h r p).2).1 = pureInlet M (resProg r p) (a.val (heapAfter h p)) ∧
    (callOutlet (objects M (heapAfter h p)) (pass (heapAfter h p) a) (prog M h r p).2).1 = pureOut M (resProg r p) (a.val (heapAfter h p)) ∧
    (callTemp (objects M (heapAfter h p)) (pass (heapAfter h p) a) (prog M h r p).2).1 = pureTemp M (resProg r p) (a.val (heapAfter h p)) ∧
    (callBore (objects M (heapAfter h p)) (pass (heapAfter h p) a) (prog M h r p).2).1 = pureBore M (resProg r p) (a.val (heapAfter h p)) ∧
    (callFluid (objects M (heapAfter h p)) (pass (heapAfter h p) a) (prog M h r p).2).1 = pureFluid M (resProg r p) (a.val (heapAfter h p)) := by
  obtain ⟨-, hW, hi⟩ := prog_inv hF hr p hp
  obtain ⟨g, hg⟩ : ∃ g, g = heapAfter h p := ⟨_, rfl⟩
  rw [← hg] at hi ha ⊢
  have hi' : Inv (objects M g) (KeyIn S (fun _ => True) g) (resProg r p) (prog M h r p).2 := inv_change (fun _ _ => rfl) (fun _ _ => trivial) hi
  have hF' := objects_fit hF (fun _ => True) g
  have hk : KeyIn S (fun _ => True) g (pass g a) := ⟨by rw [pass_val]; exact ha, fun _ _ => trivial⟩
  have e1 := (inlet_spec hF' hk hW hi').1
  have e2 := (outlet_spec hF' hk hW hi'.base hi'.keys (.inr hi'.sync)).1
  have e3 := (temp_spec hF' hk hW hi'.base hi'.keys (.inr hi'.sync)).1
  have e4 := (bore_spec hF' hk hW hi').1
  have e5 := (fluid_spec hF' hk hW hi').1
  rw [objects_inlet, pass_val] at e1
  rw [objects_out, pass_val] at e2
  rw [objects_temp, pass_val] at e3
  rw [objects_bore, pass_val] at e4
  rw [objects_fluid, pass_val] at e5
  exact ⟨e1, e2, e3, e4, e5⟩

end

/-! ### Several U-tubes -/

section
variable {F G R MV Hd O T B Q I : Type}

/-- With the objects `h` of the caller, a pipe in state `s` returns for the arguments `a` what a new pipe with resistances `r` returns for the content of `a`. -/
structure LikeNew (M : Machine (MultiCache.Args ni) F G R MV Hd O T B Q I) (h : Heap) (s : St (Key ni) F R MV Hd O B Q I) (a : Args ni) (r : R) : Prop where
  inlet : (callInlet (objects M h) (pass h a) s).1 = (callInlet M (a.val h) { R := r }).1
  outlet : (callOutlet (objects M h) (pass h a) s).1 = (callOutlet M (a.val h) { R := r }).1
  temp : (callTemp (objects M h) (pass h a) s).1 = (callTemp M (a.val h) { R := r }).1
  bore : (callBore (objects M h) (pass h a) s).1 = (callBore M (a.val h) { R := r }).1
  fluid : (callFluid (objects M h) (pass h a) s).1 = (callFluid M (a.val h) { R := r }).1

theorem prog_like_new {M : Machine (MultiCache.Args ni) F G R MV Hd O T B Q I} {S : MultiCache.Args ni → Prop} {W : R → Prop} (hF : Fit M S W) {h : Heap} {r : R} (hr : W r)
    (p : List (Op ni R)) (hp : Careful S W h p) (a : Args ni) (ha : S (a.val (heapAfter h p))) : LikeNew M (heapAfter h p) (prog M h r p).2 a (resProg r p) := by
  obtain ⟨-, hW, -⟩ := prog_inv hF hr p hp
  obtain ⟨h1, h2, h3, h4, h5⟩ := prog_pure hF hr p hp a ha
  obtain ⟨g1, g2, g3, g4, g5⟩ := history_pure hF hW [] (by simp) _ ha
  exact ⟨h1.trans g1.symm, h2.trans g2.symm, h3.trans g3.symm, h4.trans g4.symm, h5.trans g5.symm⟩

end

section
variable {n : ℕ} {c : Config} {rev : Bool} {eig : Matrix (P n) (P n) ℝ → Eig n} {edges : ℕ → Option (List ℝ) → ℕ → ℝ} {H : ℝ} (hH : 0 < H)
include hH

theorem independent_regular {Rd : Matrix (P n) (P n) ℝ} (hR : Circuit Rd) {m cp : Fin n → ℝ} (hc : ∀ i, 0 < cp i) (hm : ∀ i, m i ≠ 0 ∧ (0 < m i ∨ rev = true)) {e : Eig n}
    (he : e.Of (odeA Rd (independent n rev m cp).mcp)) {k : ℕ} {zu : ℕ → ℝ} : ∃ X, (mkBore k (independent n rev m cp) Rd e zu H).upSolve = some X := by
  have hw : ∀ i, 0 < |m i| * cp i := fun i => mul_pos (abs_pos.mpr (hm i).1) (hc i)
  have hu := solve_regular he hR.pos hR.symm (independent_aligned (fun i => (hm i).1) fun i => (hm i).2) hw hH (by
    intro x
    have hc0 : (independent n rev m cp).cfu = 0 := rfl
    rw [hc0]
    refine Finset.sum_nonpos fun i _ => ?_
    rw [Matrix.zero_mulVec]
    have := mul_nonneg (hw i).le (sq_nonneg (x i))
    simp only [Pi.zero_apply]
    nlinarith)
  unfold Bore.upSolve solve
  exact ⟨_, if_pos hu⟩

/-- **C118** (U-tubes in parallel or in series).  After any program that modifies no array of ratios it passed before, all methods return the coefficients of the content of their arguments
at the time of the call and of the current resistances, and no exception is raised. -/
theorem multiple_program_partial {S : MultiCache.Args 1 → Prop} (hS : Apart S) (hf : ∀ a, S a → Flowing n rev (a.m 0) (a.cp 0))
    (he : Decomposes (fun m cp => multiple c n rev (m 0) (cp 0)) eig S) {Rd : Matrix (P n) (P n) ℝ} (hR : Circuit Rd) (h : Heap) (p : List (Op 1 (Matrix (P n) (P n) ℝ)))
    (hp : Careful S Circuit h p) (a : Args 1) (ha : S (a.val (heapAfter h p))) :
    (prog (multipleTubes c rev eig edges H) h Rd p).1 = heapAfter h p ∧
    LikeNew (multipleTubes c rev eig edges H) (heapAfter h p) (prog (multipleTubes c rev eig edges H) h Rd p).2 a (resProg Rd p) ∧
    Returns (fmt := fun m cp => multiple c n rev (m 0) (cp 0)) (eig := eig) (edges := edges) (H := H) { R := resProg Rd p } (a.val (heapAfter h p))
      (fresh (fun m cp => multiple c n rev (m 0) (cp 0)) eig edges H (resProg Rd p) (a.val (heapAfter h p))) := by
  have hF := tubes_fit (edges := edges) (H := H) hS (multiple_format c rev) (fun Rd a hR ha => multiple_regular hR (hf a ha) (he Rd a hR ha) hH)
  obtain ⟨h1, hW, -⟩ := prog_inv hF hR p hp
  exact ⟨h1, prog_like_new hF hR p hp a ha, multiple_history_partial hH hS hf he hW [] (by simp) _ ha⟩

/-- **C118** (independent U-tubes). -/
theorem independent_program_partial {S : MultiCache.Args n → Prop} (hS : Apart S) (hf : ∀ a, S a → ∀ i, a.m i ≠ 0 ∧ (0 < a.m i ∨ rev = true))
    (he : Decomposes (fun m cp => independent n rev m cp) eig S) {Rd : Matrix (P n) (P n) ℝ} (hR : Circuit Rd) (h : Heap) (p : List (Op n (Matrix (P n) (P n) ℝ)))
    (hp : Careful S Circuit h p) (a : Args n) (ha : S (a.val (heapAfter h p))) :
    (prog (independentTubes rev eig edges H) h Rd p).1 = heapAfter h p ∧
    LikeNew (independentTubes rev eig edges H) (heapAfter h p) (prog (independentTubes rev eig edges H) h Rd p).2 a (resProg Rd p) ∧
    Returns (fmt := fun m cp => independent n rev m cp) (eig := eig) (edges := edges) (H := H) { R := resProg Rd p } (a.val (heapAfter h p))
      (fresh (fun m cp => independent n rev m cp) eig edges H (resProg Rd p) (a.val (heapAfter h p))) := by
  have hF := tubes_fit (edges := edges) (H := H) hS (independent_format rev) (fun Rd a hR ha => independent_regular hH hR (hS.cp a ha) (hf a ha) (he Rd a hR ha))
  obtain ⟨h1, hW, -⟩ := prog_inv hF hR p hp
  exact ⟨h1, prog_like_new hF hR p hp a ha, independent_history_partial hH hS hf he hW [] (by simp) _ ha⟩

end

/-! ### Arrays of ratios modified in place -/

section
variable {A F G R MV Hd O T B Q I : Type} {M : Machine A F G R MV Hd O T B Q I}

theorem outlet_stored {a : A} {s : St A F R MV Hd O B Q I} {v : O} (hs : s.s4 = none) (h : (callOutlet M a s).1 = some v) : (callOutlet M a s).2.s4 = some (a, v) := by
  unfold callOutlet at h ⊢
  rw [hs] at h ⊢
  simp only [lookup] at h ⊢
  cases e : ((parts M a s).1.bind fun p => M.outOf p.1 p.2.1 p.2.2 (M.seg a)) with
  | none => rw [e] at h; cases h
  | some o => rw [e] at h; cases h; rfl

theorem bore_stored {a : A} {s : St A F R MV Hd O B Q I} {v : B} (hs : s.s6 = none) (h : (callBore M a s).1 = some v) : (callBore M a s).2.s6 = some (a, v) := by
  unfold callBore at h ⊢
  rw [hs] at h ⊢
  simp only [lookup] at h ⊢
  split at h
  · cases h; rfl
  · cases h

theorem fluid_stored {a : A} {s : St A F R MV Hd O B Q I} {v : Q} (hs : s.s7 = none) (h : (callFluid M a s).1 = some v) : (callFluid M a s).2.s7 = some (a, v) := by
  unfold callFluid at h ⊢
  rw [hs] at h ⊢
  simp only [lookup] at h ⊢
  split at h
  · cases h; rfl
  · cases h

theorem inlet_stored {a : A} {s : St A F R MV Hd O B Q I} {v : I} (hs : s.s3 = none) (h : (callInlet M a s).1 = some v) : (callInlet M a s).2.s3 = some (a, v) := by
  unfold callInlet at h ⊢
  rw [hs] at h ⊢
  simp only [lookup] at h ⊢
  split at h
  · cases h; rfl
  · cases h

end

section
variable {F G R MV Hd O T B Q I : Type} (M : Machine (MultiCache.Args ni) F G R MV Hd O T B Q I)

theorem lookup_hit {X : Type} {h : Heap} {k : Key ni} {v : X} (hk : k.q.comparable k.q = true) (hh : M.hit (k.val h) (k.val h) = true) : lookup (objects M h) (some (k, v)) k = some v := by
  unfold lookup
  dsimp only
  rw [if_pos]
  show (k.q.comparable k.q && M.hit (k.val h) (k.val h)) = true
  rw [hk, hh]
  rfl

/-- **C118** (violated).  The array of ratios is modified in place between two calls of the same method: whatever the methods compute, the second call returns the coefficients of the
first, provided that the pipe finds equal arguments in its store (flow rates and ratios other than zero). -/
theorem ratios_stale (h : Heap) (r : ℕ) (m cp : Flow ni) (n : ℕ) (l : List ℝ) (R₀ : R) (hit : M.hit ⟨m.val h, cp.val h, n, some l⟩ ⟨m.val h, cp.val h, n, some l⟩ = true) :
    let a : Args ni := ⟨m, cp, n, .array r⟩
    let h' := heapStep (R := R) h (.setRat r l : Op ni R)
    (a.val h').ratios = some l ∧
    (∀ v, (callOutlet (objects M h) (pass h a) { R := R₀ }).1 = some v →
      (callOutlet (objects M h') (pass h' a) (prog M h R₀ [.call (.outlet a), .setRat r l]).2).1 = some v) ∧
    (∀ v, (callBore (objects M h) (pass h a) { R := R₀ }).1 = some v →
      (callBore (objects M h') (pass h' a) (prog M h R₀ [.call (.bore a), .setRat r l]).2).1 = some v) ∧
    (∀ v, (callFluid (objects M h) (pass h a) { R := R₀ }).1 = some v →
      (callFluid (objects M h') (pass h' a) (prog M h R₀ [.call (.fluid a), .setRat r l]).2).1 = some v) ∧
    (∀ v, (callInlet (objects M h) (pass h a) { R := R₀ }).1 = some v →
      (callInlet (objects M h') (pass h' a) (prog M h R₀ [.call (.inlet a), .setRat r l]).2).1 = some v) := by
  intro a h'
  have hp : pass h' a = pass h a := by
    have h1 : m.val h' = m.val h := by cases m <;> rfl
    have h2 : cp.val h' = cp.val h := by cases cp <;> rfl
    show (⟨m.val h', cp.val h', n, .array r⟩ : Key ni) = ⟨m.val h, cp.val h, n, .array r⟩
    rw [h1, h2]
  have hr : h'.rat r = l := by simp [h', heapStep]
  have hh : M.hit ((pass h a).val h') ((pass h a).val h') = true := by
    have : (pass h a).val h' = ⟨m.val h, cp.val h, n, some l⟩ := by
      show (⟨m.val h, cp.val h, n, some (h'.rat r)⟩ : MultiCache.Args ni) = _
      rw [hr]
    rw [this]
    exact hit
  have hk : (pass h a).q.comparable (pass h a).q = true := rfl
  refine ⟨by show some (h'.rat r) = some l; rw [hr], ?_, ?_, ?_, ?_⟩
  · intro v hv
    have : (prog M h R₀ [.call (.outlet a), .setRat r l]).2.s4 = some (pass h a, v) := outlet_stored (M := objects M h) (a := pass h a) rfl hv
    rw [hp]
    unfold callOutlet
    rw [this, lookup_hit M hk hh]
  · intro v hv
    have : (prog M h R₀ [.call (.bore a), .setRat r l]).2.s6 = some (pass h a, v) := bore_stored (M := objects M h) (a := pass h a) rfl hv
    rw [hp]
    unfold callBore
    rw [this, lookup_hit M hk hh]
  · intro v hv
    have : (prog M h R₀ [.call (.fluid a), .setRat r l]).2.s7 = some (pass h a, v) := fluid_stored (M := objects M h) (a := pass h a) rfl hv
    rw [hp]
    unfold callFluid
    rw [this, lookup_hit M hk hh]
  · intro v hv
    have : (prog M h R₀ [.call (.inlet a), .setRat r l]).2.s3 = some (pass h a, v) := inlet_stored (M := objects M h) (a := pass h a) rfl hv
    rw [hp]
    unfold callInlet
    rw [this, lookup_hit M hk hh]

end

theorem hitArgs_self {m cp : Fin ni → ℝ} {n : ℕ} {l : List ℝ} (hm : ∀ i, m i * cp i ≠ 0) (hl : ∀ x ∈ l, x ≠ 0) : hitArgs ⟨m, cp, n, some l⟩ ⟨m, cp, n, some l⟩ = true := by
  have hz : ∀ l : List ℝ, (∀ x ∈ l, x ≠ 0) → (List.zipWith Cache.near l l).all id = true := by
    intro l
    induction l with
    | nil => intro _; rfl
    | cons x l ih =>
      intro h
      rw [List.zipWith_cons_cons, List.all_cons, ih fun y hy => h y (List.mem_cons_of_mem _ hy)]
      simp [Cache.near_self (h x List.mem_cons_self)]
  unfold hitArgs Cache.ratiosNear
  simp only [Bool.and_eq_true, beq_iff_eq, List.all_eq_true, List.mem_ofFn, id]
  refine ⟨⟨?_, trivial⟩, trivial, ?_⟩
  · rintro x ⟨i, rfl⟩
    exact Cache.near_self (hm i)
  · have := hz l hl
    rw [List.all_eq_true] at this
    exact this

theorem outEdge_strictAnti {p : UPar} (hp : p.Passive) {z z' : ℝ} (h : z < z') : p.outEdge z' < p.outEdge z := by
  rw [UPar.outEdge_eq, UPar.outEdge_eq]
  apply mul_lt_mul_of_pos_left _ (by have := UPar.s_pos hp; have := UPar.C_pos hp; positivity)
  have h1 : p.Ep (-z') < p.Ep (-z) := by
    unfold UPar.Ep; apply Real.exp_lt_exp.mpr; have := UPar.sum_pos hp; nlinarith
  have h2 : p.Em (-z) ≤ p.Em (-z') := by
    unfold UPar.Em; apply Real.exp_le_exp.mpr; have := UPar.diff_neg hp; nlinarith
  have := UPar.e_pos (p := p)
  nlinarith

theorem two_edges {H x : ℝ} (hH : 0 < H) (h0 : 0 ≤ x) (h1 : x ≤ 1) : Edges (Get.edges H 2 (some [x, 1 - x])) 2 H := by
  refine ⟨by norm_num, by simp [Get.edges], by simp [Get.edges], ?_⟩
  intro i j hij hj
  have : j = 0 ∨ j = 1 ∨ j = 2 := by omega
  have : i = 0 ∨ i = 1 ∨ i = 2 := by omega
  have := mul_nonneg h0 hH.le
  rcases ‹j = 0 ∨ j = 1 ∨ j = 2› with rfl | rfl | rfl <;> rcases ‹i = 0 ∨ i = 1 ∨ i = 2› with rfl | rfl | rfl <;> simp [Get.edges] at hij ⊢ <;> nlinarith

/-- The outlet temperature of a pipe with one U-tube, in terms of `SingleUTube`. -/
theorem one_outlet {Rd : Fin 2 → Fin 2 → ℝ} (hpos : ∀ i j, 0 < Rd i j) (hs : Rd 0 1 = Rd 1 0) (c : Config) {rev : Bool} {m cp : ℝ} (hf : Flowing 1 rev m cp) {H x : ℝ} (hH : 0 < H)
    (h0 : 0 ≤ x) (h1 : x ≤ 1) : ∃ D : Matrix (Fin 1) (Fin 1) ℝ × Matrix (Fin 1) (Fin 2) ℝ,
    (callOutlet (multipleTubes c rev someEig (Get.edges H) H) ⟨fun _ => m, fun _ => cp, 2, some [x, 1 - x]⟩ { R := fun i j => Rd (idx i) (idx j) }).1 = some ⟨2, D⟩ ∧
    (∀ (h : Heap) (a : Args 1), a.val h = ⟨fun _ => m, fun _ => cp, 2, some [x, 1 - x]⟩ →
      (callOutlet (objects (multipleTubes c rev someEig (Get.edges H) H) h) (pass h a) { R := fun i j => Rd (idx i) (idx j) }).1 = some ⟨2, D⟩) ∧
    ∀ Tin (Tb : Fin 2 → ℝ), (D.1 *ᵥ (fun _ => Tin) + D.2 *ᵥ Tb) 0 = (singleUTube Rd H rev).outletT (Get.edges H 2 (some [x, 1 - x])) 2 m cp Tin (fun u => Tb (Fin.ofNat 2 u)) := by
  have hR : Circuit (fun i j : P 1 => Rd (idx i) (idx j)) := by
    refine ⟨fun i j => hpos _ _, ?_⟩
    ext i j
    show Rd (idx j) (idx i) = Rd (idx i) (idx j)
    rcases i with i | i <;> rcases j with j | j <;> simp [idx, hs]
  have hS : Apart fun a : MultiCache.Args 1 => a = ⟨fun _ => m, fun _ => cp, 2, some [x, 1 - x]⟩ := by
    constructor
    · rintro a rfl i; exact hf.hcp
    · rintro k a rfl rfl _; exact ⟨fun _ => rfl, rfl, rfl⟩
  have hdec := someEig_decomposes (fun m cp : Fin 1 → ℝ => multiple c 1 rev (m 0) (cp 0)) fun a => a = ⟨fun _ => m, fun _ => cp, 2, some [x, 1 - x]⟩
  obtain ⟨⟨D, g1, g2⟩, -⟩ := multiple_history_partial (edges := Get.edges H) hH hS (by rintro a rfl; exact hf) hdec hR [] (by simp) _ rfl
  refine ⟨D, g2, fun h a ha => ?_, fun Tin Tb => ?_⟩
  · have := (multiple_program_partial (edges := Get.edges H) hH hS (by rintro a rfl; exact hf) hdec hR h [] (by intro p₁ o p₂ e; simp at e) a ha).2.1.outlet
    rw [show a.val (heapAfter h ([] : List (Op 1 (Matrix (P 1) (P 1) ℝ)))) = _ from ha] at this
    exact this.trans g2
  have g3 := (multiple_one hpos hs c hf (hdec _ _ hR rfl) hH (two_edges hH h0 h1) Tin (fun u => Tb (Fin.ofNat 2 u))).2.1
  unfold Bore.outletT at g3
  rw [show (mkBore 2 (multiple c 1 rev m cp) (fun i j => Rd (idx i) (idx j)) (someEig (odeA (fun i j => Rd (idx i) (idx j)) (multiple c 1 rev m cp).mcp)) (Get.edges H 2 (some [x, 1 - x])) H).outletCoef
    = some D from g1] at g3
  have g4 := congrFun (Option.some.inj g3) 0
  dsimp only at g4
  rw [← g4]
  congr 3

/-- **C118** (violated).  A borehole with one U-tube and two segments, any circuit and any flow rate: the ratios 1/2, 1/2 are replaced in place with 1/4, 3/4.  The outlet temperature that
the pipe then returns is wrong for all wall temperatures that are not uniform. -/
theorem ratios_wrong {Rd : Fin 2 → Fin 2 → ℝ} (hpos : ∀ i j, 0 < Rd i j) (hs : Rd 0 1 = Rd 1 0) (c : Config) {rev : Bool} {m cp : ℝ} (hf : Flowing 1 rev m cp) {H : ℝ} (hH : 0 < H)
    (h : Heap) (hh : h.rat 0 = [1 / 2, 1 / 2]) :
    let M := multipleTubes c rev someEig (Get.edges H) H
    let R : Matrix (P 1) (P 1) ℝ := fun i j => Rd (idx i) (idx j)
    let a : Args 1 := ⟨.num fun _ => m, .num fun _ => cp, 2, .array 0⟩
    let σ := prog M h R [.call (.outlet a), .setRat 0 [1 / 4, 3 / 4]]
    ∃ D E : Matrix (Fin 1) (Fin 1) ℝ × Matrix (Fin 1) (Fin 2) ℝ, (callOutlet (objects M σ.1) (pass σ.1 a) σ.2).1 = some ⟨2, D⟩ ∧ (callOutlet M (a.val σ.1) { R := R }).1 = some ⟨2, E⟩ ∧
      ∀ Tin (Tb : Fin 2 → ℝ), Tb 0 ≠ Tb 1 → (D.1 *ᵥ (fun _ => Tin) + D.2 *ᵥ Tb) 0 ≠ (E.1 *ᵥ (fun _ => Tin) + E.2 *ᵥ Tb) 0 := by
  intro M R a σ
  obtain ⟨D, -, hD, hD'⟩ := one_outlet hpos hs c hf (x := 1 / 2) hH (by norm_num) (by norm_num)
  obtain ⟨E, hE, -, hE'⟩ := one_outlet hpos hs c hf (x := 1 / 4) hH (by norm_num) (by norm_num)
  rw [show (1 : ℝ) - 1 / 2 = 1 / 2 by norm_num] at hD hD'
  rw [show (1 : ℝ) - 1 / 4 = 3 / 4 by norm_num] at hE hE'
  have hne0 : ∀ i : Fin 1, (fun _ => m : Fin 1 → ℝ) i * (fun _ => cp : Fin 1 → ℝ) i ≠ 0 := fun _ => mul_ne_zero hf.hm hf.hcp.ne'
  obtain ⟨e1, e2, -⟩ := ratios_stale M h 0 (.num fun _ => m) (.num fun _ => cp) 2 [1 / 4, 3 / 4] R (hitArgs_self hne0 (by norm_num))
  refine ⟨D, E, e2 _ (hD h a ?_), ?_, fun Tin Tb hne he => ?_⟩
  · show (⟨_, _, 2, some (h.rat 0)⟩ : MultiCache.Args 1) = _
    rw [hh]
    rfl
  · rw [← hE]
    show (callOutlet M ⟨_, _, 2, some (σ.1.rat 0)⟩ _).1 = _
    have : σ.1.rat 0 = [1 / 4, 3 / 4] := by
      show (h.setRat 0 [1 / 4, 3 / 4]).rat 0 = _
      simp [Heap.setRat]
    rw [this]
    rfl
  · rw [hD', hE'] at he
    have hp := UTube.par_passive (UTube.singleUTube_valid rev hH hpos hs) hf.hm hf.hcp
    have hlt := outEdge_strictAnti hp (z := 1 / 4 * H) (z' := 1 / 2 * H) (by linarith)
    unfold UTube.outletT UPar.outletT UPar.outB at he
    rw [Finset.sum_range_succ, Finset.sum_range_one, Finset.sum_range_succ, Finset.sum_range_one] at he
    have f0 : ∀ x y : ℝ, Get.edges H 2 (some [x, y]) 0 = 0 := by intro x y; simp [Get.edges]
    have f1 : ∀ x y : ℝ, Get.edges H 2 (some [x, y]) (0 + 1) = x * H := by intro x y; simp [Get.edges]
    have f2 : ∀ x y : ℝ, Get.edges H 2 (some [x, y]) (1 + 1) = (x + y) * H := by intro x y; simp [Get.edges]
    simp only [f0, f1, f2] at he
    rw [show (1 : ℝ) / 4 + 3 / 4 = 1 / 2 + 1 / 2 by norm_num] at he
    have : (Tb 0 - Tb 1) * (((singleUTube Rd H rev).par m cp).outEdge (1 / 4 * H) - ((singleUTube Rd H rev).par m cp).outEdge (1 / 2 * H)) = 0 := by
      have g0 : Tb (Fin.ofNat 2 0) = Tb 0 := rfl
      have g1 : Tb (Fin.ofNat 2 1) = Tb 1 := rfl
      rw [g0, g1] at he
      linear_combination he
    rcases mul_eq_zero.mp this with h0 | h0
    · exact hne (sub_eq_zero.mp h0)
    · linarith

/-! ### `SingleUTube` and `Coaxial` -/

/-- **C118** (violated: single U-tube, coaxial pipes).  The array of ratios is modified in place between two calls of the outlet temperature: the second call returns the coefficients of
the old ratios `l`. -/
theorem single_stale (edges : ℕ → Option (List ℝ) → ℕ → ℝ) (t : UTube) {m cp : ℝ} (hm : m * cp ≠ 0) (n : ℕ) (l l' : List ℝ) (hl : ∀ x ∈ l', x ≠ 0) :
    (Cache.callOutlet edges ⟨m, cp, n, some l'⟩ (assign l' (Cache.run edges t [.outlet ⟨m, cp, n, some l⟩]))).1 =
      ((t.par m cp).outA, fun u => (t.par m cp).outB (edges n (some l)) u) := by
  have hs : (assign l' (Cache.run edges t [.outlet ⟨m, cp, n, some l⟩])).s4 = some (⟨m, cp, n, some l'⟩, (t.par m cp).outA, fun u => (t.par m cp).outB (edges n (some l)) u) := rfl
  have hh : Cache.hit ⟨m, cp, n, some l'⟩ ⟨m, cp, n, some l'⟩ = true := by
    have h := hitArgs_self (m := fun _ : Fin 1 => m) (cp := fun _ => cp) (n := n) (fun _ => hm) hl
    unfold hitArgs at h
    unfold Cache.hit
    simpa [Cache.near_self hm] using h
  unfold Cache.callOutlet Cache.lookup
  rw [hs]
  dsimp only
  rw [if_pos hh]

/-- **C118** (violated: single U-tube, coaxial pipes).  Two segments: the outlet temperature after the ratios `x`, `1 - x` were replaced in place with `y`, `1 - y` is wrong for all wall
temperatures that are not uniform. -/
theorem single_wrong {t : UTube} (ht : t.Valid) {m cp : ℝ} (hm : m ≠ 0) (hc : 0 < cp) {x y : ℝ} (hxy : x ≠ y) (hy : y ≠ 0 ∧ y ≠ 1) (Tin : ℝ) (Tb : ℕ → ℝ) (hT : Tb 0 ≠ Tb 1) :
    let D := (Cache.callOutlet (Get.edges t.H) ⟨m, cp, 2, some [y, 1 - y]⟩ (assign [y, 1 - y] (Cache.run (Get.edges t.H) t [.outlet ⟨m, cp, 2, some [x, 1 - x]⟩]))).1
    D.1 * Tin + (D.2 0 * Tb 0 + D.2 1 * Tb 1) ≠ t.outletT (Get.edges t.H 2 (some [y, 1 - y])) 2 m cp Tin Tb := by
  intro D he
  have hy' : 1 - y ≠ 0 := sub_ne_zero.mpr hy.2.symm
  have hD := single_stale (Get.edges t.H) t (mul_ne_zero hm hc.ne') 2 [x, 1 - x] [y, 1 - y] (by simp [hy.1, hy'])
  have hp := UTube.par_passive ht hm hc
  have hne : (t.par m cp).outEdge (x * t.H) ≠ (t.par m cp).outEdge (y * t.H) := by
    have hH := ht.H
    rcases lt_or_gt_of_ne hxy with h | h
    · exact (outEdge_strictAnti hp (mul_lt_mul_of_pos_right h hH)).ne'
    · exact (outEdge_strictAnti hp (mul_lt_mul_of_pos_right h hH)).ne
  have e1 : D.1 = (t.par m cp).outA := congrArg Prod.fst hD
  have e2 : D.2 = fun u => (t.par m cp).outB (Get.edges t.H 2 (some [x, 1 - x])) u := congrArg Prod.snd hD
  rw [e1, e2] at he
  unfold UTube.outletT UPar.outletT UPar.outB at he
  rw [Finset.sum_range_succ, Finset.sum_range_one] at he
  have f0 : ∀ x y : ℝ, Get.edges t.H 2 (some [x, y]) 0 = 0 := by intro x y; simp [Get.edges]
  have f1 : ∀ x y : ℝ, Get.edges t.H 2 (some [x, y]) (0 + 1) = x * t.H := by intro x y; simp [Get.edges]
  have f2 : ∀ x : ℝ, Get.edges t.H 2 (some [x, 1 - x]) (1 + 1) = t.H := by intro x; simp [Get.edges]
  simp only [f0, f1, f2] at he
  have : (Tb 0 - Tb 1) * ((t.par m cp).outEdge (x * t.H) - (t.par m cp).outEdge (y * t.H)) = 0 := by linear_combination -he
  rcases mul_eq_zero.mp this with h0 | h0
  · exact hT (sub_eq_zero.mp h0)
  · exact hne (sub_eq_zero.mp h0)

/-! ### Cases -/

/-- Flow rate 1, with a list or an array of ratios. -/
def aArr (r : ℕ) : Args 1 := ⟨.ref 0, .num fun _ => 1, 2, .array r⟩
def aList : Args 1 := ⟨.ref 0, .num fun _ => 1, 2, .list 1⟩

/-- Flow rates 1 and 2 with ratios 1/2, 1/2 or 1/4, 3/4. -/
def point (m x : ℝ) : MultiCache.Args 1 := ⟨fun _ => m, fun _ => 1, 2, some [x, 1 - x]⟩

theorem points_apart : Apart fun a => a = point 1 (1 / 2) ∨ a = point 2 (1 / 4) := by
  constructor
  · rintro a (rfl | rfl) i <;> exact one_pos
  · rintro k a (rfl | rfl) (rfl | rfl) h
    · exact ⟨fun _ => rfl, rfl, rfl⟩
    · have := h.mcp 0; norm_num [point] at this
    · have := h.mcp 0; norm_num [point] at this
    · exact ⟨fun _ => rfl, rfl, rfl⟩

theorem careful_snoc {R : Type} {S : MultiCache.Args ni → Prop} {W : R → Prop} {h : Heap} {p : List (Op ni R)} (hp : Careful S W h p) {o : Op ni R}
    (h1 : ∀ c, o = .call c → Content S W (heapAfter h p) c) (h2 : ∀ r l, o = .setRat r l → ∀ c, .call c ∈ p → ¬Uses r c) : Careful S W h (p ++ [o]) := by
  intro p₁ o' p₂ e
  rcases List.eq_nil_or_concat p₂ with rfl | ⟨q, x, rfl⟩
  · obtain ⟨rfl, e'⟩ := List.append_inj' e rfl
    cases e'
    exact ⟨h1, h2⟩
  · have e' : p ++ [o] = (p₁ ++ o' :: q) ++ [x] := by rw [e]; simp
    obtain ⟨rfl, -⟩ := List.append_inj' e' rfl
    exact hp p₁ o' q rfl

/-- The flow rate and a list of ratios are replaced in place between calls. -/
example (c : Config) : let h : Heap := ⟨fun _ _ => 1, fun _ => [1 / 2, 1 - 1 / 2]⟩
    let p : List (Op 1 (Matrix (P 2) (P 2) ℝ)) := [.call (.outlet (aArr 0)), .call (.bore aList), .setFlow 0 fun _ => 2, .setRat 1 [1 / 4, 1 - 1 / 4]]
    aList.val (heapAfter h p) = point 2 (1 / 4) ∧
    LikeNew (multipleTubes c true someEig (Get.edges 100) 100) (heapAfter h p) (prog (multipleTubes c true someEig (Get.edges 100) 100) h (sampleRd 2) p).2 aList (sampleRd 2) := by
  intro h p
  have hv : aList.val (heapAfter h p) = point 2 (1 / 4) := by simp [aList, Args.val, Flow.val, Rat.val, heapAfter, heapStep, p, h, point]
  refine ⟨hv, ?_⟩
  have hp : Careful (fun a => a = point 1 (1 / 2) ∨ a = point 2 (1 / 4)) Circuit h p := by
    show Careful _ _ h (((([] ++ [.call (.outlet (aArr 0))]) ++ [.call (.bore aList)]) ++ [.setFlow 0 fun _ => 2]) ++ [.setRat 1 [1 / 4, 1 - 1 / 4]])
    refine careful_snoc (careful_snoc (careful_snoc (careful_snoc ?_ ?_ ?_) ?_ ?_) ?_ ?_) ?_ ?_
    · intro p₁ o p₂ e; simp at e
    · rintro c ⟨⟩; exact .inl rfl
    · rintro r l ⟨⟩
    · rintro c ⟨⟩; exact .inl rfl
    · rintro r l ⟨⟩
    · rintro c ⟨⟩
    · rintro r l ⟨⟩
    · rintro c ⟨⟩
    · rintro r l ⟨⟩ c hc
      simp at hc
      rcases hc with rfl | rfl <;> simp [Uses, aArr, aList]
  exact (multiple_program_partial (by norm_num) points_apart (by
    rintro a (rfl | rfl)
    · exact ⟨by norm_num, by norm_num [point], by norm_num [point], .inr rfl⟩
    · exact ⟨by norm_num, by norm_num [point], by norm_num [point], .inr rfl⟩) (someEig_decomposes _ _) (sample_circuit 2) h p hp aList (.inr hv)).2.1

/-- The hypotheses of `ratios_wrong` hold. -/
example : (∀ i j, 0 < (fun i j => if i = j then 1 else 2 : Fin 2 → Fin 2 → ℝ) i j) ∧ Flowing 1 true (-1) 1 := by
  refine ⟨fun i j => ?_, by norm_num, by norm_num, by norm_num, .inr rfl⟩
  dsimp only
  split_ifs <;> norm_num

/-- The hypotheses of `single_wrong` hold. -/
example : (UTube.sample true).Valid ∧ (1 / 2 : ℝ) ≠ 1 / 4 ∧ ((1 / 4 : ℝ) ≠ 0 ∧ (1 / 4 : ℝ) ≠ 1) := ⟨UTube.sample_valid true, by norm_num, by norm_num, by norm_num⟩

end Verif.Pipe.Alias
