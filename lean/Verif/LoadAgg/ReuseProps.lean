import Verif.LoadAgg.ReuseModel
import Verif.LoadAgg.CJProps
import Verif.LoadAgg.MLAAProps
import Verif.LoadAgg.LiuProps

/-!
# C164: reuse of load aggregation objects and of their arguments

The temperatures are those of the response factors that the array held when `initialize` was called, and of the loads since the object was created.  `MLAA` and `Liu` keep the array of the caller, and
`ClaessonJaved` gives its own array away when there are several sources.  `initialize` never starts a new simulation: the loads of the one before stay.
-/

namespace Verif.LoadAgg.Reuse

variable {K : Type*} [Field K] {S : Type*} {n : ℕ}

/-! ### Specification -/

/-- The calls that shift or set loads. -/
def opsOf : List (Call K S) → List (Op K S)
  | [] => []
  | .next :: cs => .next :: opsOf cs
  | .set l :: cs => .set l :: opsOf cs
  | _ :: cs => opsOf cs

/-- The statement for a call that shifts or sets loads. -/
def callOf : Op K S → Call K S
  | .next => .next
  | .set l => .set l

/-- Content of the array at the last `initialize`, when the arrays are `h` and `g` was given before. -/
def given (h : ℕ → Arr K S) (g : Option (Arr K S)) : List (Call K S) → Option (Arr K S)
  | [] => g
  | .write r a :: cs => given (Function.update h r a) g cs
  | .init r :: cs => given h (some (h r)) cs
  | _ :: cs => given h g cs

/-- The array given at the last `initialize` (`g` at first) is not modified after it. -/
def Untouched (g : Option ℕ) : List (Call K S) → Prop
  | [] => True
  | .write r _ :: cs => g ≠ some r ∧ Untouched g cs
  | .init r :: cs => Untouched (some r) cs
  | _ :: cs => Untouched g cs

/-- No array returned by `get_thermal_response_factor_increment` is modified. -/
def IncUntouched (cs : List (Call K S)) : Prop := ∀ a, Call.writeInc a ∉ cs

/-! ### Claesson and Javed -/

theorem cj_fold [Fintype S] (w : Fin (n + 1) → K) (cs : List (Call K S)) (hi : Fintype.card S = 1 ∨ IncUntouched cs) :
    ∀ (h : ℕ → Arr K S) (g : Option (Arr K S)) (q : CJ.Cells K S n),
      (cs.foldl (cjCall w) ⟨h, g.map fun a => CJ.increments fun i j k => a i j k, q⟩).dg = (given h g cs).map (fun a => CJ.increments fun i j k => a i j k) ∧
      (cs.foldl (cjCall w) ⟨h, g.map fun a => CJ.increments fun i j k => a i j k, q⟩).q = (opsOf cs).foldl (CJ.step w) q := by
  induction cs with
  | nil => intro h g q; exact ⟨rfl, rfl⟩
  | cons c cs ih =>
    have hi' : Fintype.card S = 1 ∨ IncUntouched cs := hi.imp_right fun h a ha => h a (List.mem_cons_of_mem _ ha)
    intro h g q
    cases c with
    | write r a => exact ih hi' (Function.update h r a) g q
    | writeInc a =>
      have h1 : Fintype.card S = 1 := hi.resolve_right fun h => h a List.mem_cons_self
      have := ih hi' h g q
      simp only [List.foldl_cons, cjCall, h1, if_true]
      exact this
    | init r => exact ih hi' h (some (h r)) q
    | next => exact ih hi' h g _
    | set l => exact ih hi' h g _

/-- **C164** (`ClaessonJaved`; partial: with several sources the array returned by `get_thermal_response_factor_increment` is not modified).  After any statements, the temperatures are those of the
array as it was at the last `initialize` and of all loads; the caller may modify the array. -/
theorem cj_reuse_partial [Fintype S] (w : Fin (n + 1) → K) (h : ℕ → Arr K S) {cs : List (Call K S)} (hi : Fintype.card S = 1 ∨ IncUntouched cs) :
    cjTemp (cs.foldl (cjCall w) ⟨h, none, CJ.initCells⟩) = (given h none cs).map fun a => CJ.temporalSuperposition (CJ.increments fun i j k => a i j k) (CJ.run w (opsOf cs)) := by
  obtain ⟨h1, h2⟩ := cj_fold w cs hi h none CJ.initCells
  unfold cjTemp
  simp only [Option.map_none] at h1 h2
  rw [h1, h2, Option.map_map]
  rfl

/-! ### Multiple load aggregation, and Liu -/

theorem ref_fold {σ : Type*} (step : σ → Op K S → Option σ) (cs : List (Call K S)) :
    ∀ (h : ℕ → Arr K S) (g : Option ℕ) (s : Option σ), Untouched g cs →
      ((cs.foldl (refCall step) ⟨h, g, s⟩).g.map (cs.foldl (refCall step) ⟨h, g, s⟩).heap) = given h (g.map h) cs ∧
      (cs.foldl (refCall step) ⟨h, g, s⟩).loads = (opsOf cs).foldl (fun s op => s.bind fun s => step s op) s := by
  induction cs with
  | nil => intro h g s _; exact ⟨rfl, rfl⟩
  | cons c cs ih =>
    intro h g s hu
    cases c with
    | write r a =>
      have := ih (Function.update h r a) g s hu.2
      have e : g.map (Function.update h r a) = g.map h := by
        cases g with
        | none => rfl
        | some r' =>
          have : r' ≠ r := fun e => hu.1 (by rw [e])
          simp [Function.update_of_ne this]
      rw [e] at this
      exact this
    | writeInc a => exact ih h g s hu
    | init r => exact ih h (some r) s hu
    | next => exact ih h g _ hu
    | set l => exact ih h g _ hu

theorem ref_temp {σ : Type*} (step : σ → Op K S → Option σ) (temp : Arr K S → σ → Option (S → K)) (h : ℕ → Arr K S) (s : Option σ) {cs : List (Call K S)} (hu : Untouched none cs) :
    refTemp temp (cs.foldl (refCall step) ⟨h, none, s⟩) = (given h none cs).bind fun a => ((opsOf cs).foldl (fun s op => s.bind fun s => step s op) s).bind (temp a) := by
  obtain ⟨h1, h2⟩ := ref_fold step cs h none s hu
  unfold refTemp
  rw [Option.map_none] at h1
  rw [← h1, ← h2]
  cases (cs.foldl (refCall step) ⟨h, none, s⟩).g <;> rfl

/-- **C164** (`MLAA` and `Liu`; partial: the array given to the last `initialize` is not modified after it).  After any statements, the temperatures are those of this array and of all loads. -/
theorem ref_reuse_partial [Fintype S] (P : MLAA.Params) (L : Liu.Params) (Ng : ℕ) (h : ℕ → Arr K S) {cs : List (Call K S)} (hu : Untouched none cs) :
    refTemp (MLAA.temporalSuperposition P) (cs.foldl (refCall (MLAA.step P)) ⟨h, none, some MLAA.init⟩) =
      ((given h none cs).bind fun a => (MLAA.run P (opsOf cs)).bind (MLAA.temporalSuperposition P a)) ∧
    refTemp (fun a s => some (Liu.temporalSuperposition L Ng a s)) (cs.foldl (refCall (Liu.step L)) ⟨h, none, some Liu.init⟩) =
      ((given h none cs).bind fun a => (Liu.run L (opsOf cs)).bind fun s => some (Liu.temporalSuperposition L Ng a s)) :=
  ⟨ref_temp _ _ h _ hu, ref_temp _ _ h _ hu⟩

/-! ### Simulations one after the other -/

theorem opsOf_append (a b : List (Call K S)) : opsOf (a ++ b) = opsOf a ++ opsOf b := by
  induction a with
  | nil => rfl
  | cons c a ih => cases c <;> simp [opsOf, ih]

/-- **C164** (violated: a second simulation).  `initialize` keeps the loads: while the cells of `ClaessonJaved` are unit cells, the temperatures of a second simulation with the same object are the superposition
of its loads and of those of the first. -/
theorem cj_second [Fintype S] (w : Fin (n + 1) → K) (h : ℕ → Arr K S) (first second : List (Op K S)) (r r' : ℕ) (hp : Proper first) (hne : first ≠ [])
    (hlen : (hist (first ++ second)).length ≤ n + 1) (hunit : ∀ k : Fin (n + 1), k.val < (hist (first ++ second)).length → w k = 1) :
    ∃ T, cjTemp ((.init r :: first.map callOf ++ .init r' :: second.map callOf).foldl (cjCall w) ⟨h, none, CJ.initCells⟩) = some T ∧
      ∀ i, T i = ∑ j, superpose (h r' i j) ((hist (first ++ second)).map fun l => l j) := by
  have ho : ∀ l : List (Op K S), opsOf (l.map callOf) = l := by
    intro l
    induction l with
    | nil => rfl
    | cons op l ih => cases op <;> simp_all [opsOf, callOf]
  have hg : ∀ (l : List (Op K S)) (h : ℕ → Arr K S) (g : Option (Arr K S)) (cs : List (Call K S)), given h g (l.map callOf ++ cs) = given h g cs := by
    intro l
    induction l with
    | nil => intro h g cs; rfl
    | cons op l ih => intro h g cs; cases op <;> exact ih h g cs
  have hi : IncUntouched (.init r :: first.map callOf ++ .init r' :: second.map callOf) := by
    intro a ha
    simp only [List.cons_append, List.mem_cons, List.mem_append, List.mem_map, reduceCtorEq, false_or] at ha
    rcases ha with ⟨op, -, ho⟩ | ⟨op, -, ho⟩ <;> cases op <;> simp [callOf] at ho
  refine ⟨CJ.temporalSuperposition (CJ.increments fun i j k => h r' i j k) (CJ.run w (first ++ second)), (cj_reuse_partial w h (Or.inr hi)).trans ?_, fun i => ?_⟩
  · rw [List.cons_append, given, hg, given]
    have e2 := hg second h (some (h r')) []
    rw [List.append_nil] at e2
    rw [e2]
    simp only [given, Option.map_some, opsOf, opsOf_append, ho]
  · refine CJ.cj_exact_unit_cells w (h r') (first ++ second) ?_ hlen hunit i
    cases first with
    | nil => exact absurd rfl hne
    | cons op l => cases op <;> exact hp

/-- **C164** (violated: a second simulation).  After the announced number of time steps, every further time step of an `MLAA` object raises, whatever `initialize` is given. -/
theorem mlaa_second [Fintype S] (P : MLAA.Params) (h0 : 1 ≤ P.N0) (h : ℕ → Arr K S) {cs : List (Call K S)} (hp : Proper (opsOf cs)) (hlen : (hist (opsOf cs)).length = P.Nt) (hne : opsOf cs ≠ []) (r : ℕ) :
    ((cs ++ [Call.init r, Call.next]).foldl (refCall (MLAA.step P)) ⟨h, none, some MLAA.init⟩).loads = none := by
  have hl : ∀ (cs : List (Call K S)) (o : RefObj K S (MLAA.State K S)), (cs.foldl (refCall (MLAA.step P)) o).loads = (opsOf cs).foldl (fun s op => s.bind fun s => MLAA.step P s op) o.loads := by
    intro cs
    induction cs with
    | nil => intro o; rfl
    | cons c cs ih => intro o; cases c <;> exact ih _
  rw [hl, opsOf_append]
  have hrun := MLAA.mlaa_run_isSome_iff P h0 (opsOf cs ++ [.next]) (by
    generalize opsOf cs = l at hp hne
    cases l with
    | nil => exact absurd rfl hne
    | cons op l => cases op <;> exact hp)
  rw [hist_append] at hrun
  simp only [histStep, List.length_cons] at hrun
  have : ¬ ((hist (opsOf cs)).length + 1 ≤ P.Nt) := by omega
  rw [← hrun] at this
  simpa [opsOf, MLAA.run] using this

/-! ### Witnesses -/

/-- Response factors `1, 2, 3, …` of every source on itself, and none of the others. -/
def ramp [DecidableEq S] : Arr ℚ S := fun i j k => if i = j then (k : ℚ) + 1 else 0

/-- **C164** (violated: witness).  One load in a first simulation, none in the second: the temperature of the second, for the three schemes, is not zero. -/
theorem second_fails :
    let cs : List (Call ℚ Unit) := [.init 0, .next, .set fun _ => 1, .init 0, .next, .set fun _ => 0]
    (cjTemp (cs.foldl (cjCall fun _ : Fin 5 => 1) ⟨fun _ => ramp, none, CJ.initCells⟩)).map (fun T => T ()) = some 1 ∧
    (refTemp (MLAA.temporalSuperposition ⟨20, 3, 2, 2, 2⟩) (cs.foldl (refCall (MLAA.step ⟨20, 3, 2, 2, 2⟩)) ⟨fun _ => ramp, none, some MLAA.init⟩)).map (fun T => T ()) = some 1 ∧
    (refTemp (fun a s => some (Liu.temporalSuperposition ⟨2, 2, 2, 1, 1, 1, 5⟩ 20 a s)) (cs.foldl (refCall (Liu.step ⟨2, 2, 2, 1, 1, 1, 5⟩)) ⟨fun _ => ramp, none, some Liu.init⟩)).map (fun T => T ()) =
      some 1 := by
  intro cs
  have hu : Untouched none cs := by simp [cs, Untouched]
  have hg : given (fun _ => ramp) none cs = some ramp := by simp [cs, given]
  have ho : opsOf cs = [.next, .set fun _ => 1, .next, .set fun _ => 0] := rfl
  have hh : hist (opsOf cs) = [fun _ => 0, fun _ => 1] := by simp [ho, hist, histStep]
  have hp : Proper (opsOf cs) := by rw [ho]; trivial
  refine ⟨?_, ?_, ?_⟩
  · rw [cj_reuse_partial _ _ (Or.inl (by simp)), hg]
    simp only [Option.map_some]
    congr 1
    have := CJ.cj_exact_unit_cells (fun _ : Fin 5 => (1 : ℚ)) (ramp : Arr ℚ Unit) (opsOf cs) hp (by rw [hh]; simp) (by simp) ()
    rw [this, hh]
    simp [superpose, Finset.sum_range_succ, ramp]
  · rw [(ref_reuse_partial ⟨20, 3, 2, 2, 2⟩ ⟨2, 2, 2, 1, 1, 1, 5⟩ 20 _ hu).1, hg]
    obtain ⟨s, hs⟩ := Option.isSome_iff_exists.mp ((MLAA.mlaa_run_isSome_iff (K := ℚ) (S := Unit) ⟨20, 3, 2, 2, 2⟩ (by norm_num) (opsOf cs) hp).mpr (by rw [hh]; simp))
    simp only [Option.bind_some, hs]
    rw [MLAA.mlaa_response ⟨20, 3, 2, 2, 2⟩ (by norm_num) (by norm_num) (by norm_num) (by norm_num) ramp (opsOf cs) hp (by rw [ho]; simp) s hs, hh]
    simp [superpose, averaged, MLAA.blockSizes, mean, Finset.sum_range_succ, ramp]
  · rw [(ref_reuse_partial ⟨20, 3, 2, 2, 2⟩ ⟨2, 2, 2, 1, 1, 1, 5⟩ 20 _ hu).2, hg]
    obtain ⟨s, hs, hv⟩ := Liu.liu_response (K := ℚ) (S := Unit) ⟨2, 2, 2, 1, 1, 1, 5⟩ 40 20 (by constructor <;> norm_num) (by norm_num [Liu.Params.N4Ok]) ramp (opsOf cs) hp (by rw [ho]; simp)
      (by rw [hh]; simp)
    simp only [Option.bind_some, hs, Option.map_some, hv]
    obtain ⟨s', hs', hsz⟩ : ∃ s', Liu.run (K := ℚ) (S := Unit) ⟨2, 2, 2, 1, 1, 1, 5⟩ (opsOf cs) = some s' ∧ Liu.sizes ⟨2, 2, 2, 1, 1, 1, 5⟩ s' = [1, 1] := ⟨_, rfl, rfl⟩
    obtain rfl : s = s' := Option.some.inj (hs.symm.trans hs')
    rw [hsz, hh]
    simp [superpose, averaged, mean, Finset.sum_range_succ, ramp]

/-- The array of the last `initialize`. -/
def lastInit (g : Option ℕ) : List (Call K S) → Option ℕ
  | [] => g
  | .init r :: cs => lastInit (some r) cs
  | _ :: cs => lastInit g cs

theorem ref_state {σ : Type*} (step : σ → Op K S → Option σ) (cs : List (Call K S)) : ∀ o : RefObj K S σ,
    (cs.foldl (refCall step) o).g = lastInit o.g cs ∧ (cs.foldl (refCall step) o).loads = (opsOf cs).foldl (fun s op => s.bind fun s => step s op) o.loads := by
  induction cs with
  | nil => intro o; exact ⟨rfl, rfl⟩
  | cons c cs ih => intro o; cases c <;> exact ih _

/-- **C164** (violated: shared arrays).  `MLAA` and `Liu`: when the caller modifies the array after `initialize`, the temperatures are those of the modified array. -/
theorem array_read [Fintype S] (P : MLAA.Params) (L : Liu.Params) (Ng : ℕ) (h : ℕ → Arr K S) (cs : List (Call K S)) {r : ℕ} (hr : lastInit none cs = some r) (a : Arr K S) :
    refTemp (MLAA.temporalSuperposition P) ((cs ++ [Call.write r a]).foldl (refCall (MLAA.step P)) ⟨h, none, some MLAA.init⟩) = (MLAA.run P (opsOf cs)).bind (MLAA.temporalSuperposition P a) ∧
    refTemp (fun a s => some (Liu.temporalSuperposition L Ng a s)) ((cs ++ [Call.write r a]).foldl (refCall (Liu.step L)) ⟨h, none, some Liu.init⟩) =
      (Liu.run L (opsOf cs)).bind fun s => some (Liu.temporalSuperposition L Ng a s) := by
  constructor
  · rw [List.foldl_append]
    obtain ⟨h1, h2⟩ := ref_state (MLAA.step P) cs ⟨h, none, some MLAA.init⟩
    simp only [List.foldl_cons, List.foldl_nil, refCall, refTemp, h1, h2, hr, Function.update_self]
    rfl
  · rw [List.foldl_append]
    obtain ⟨h1, h2⟩ := ref_state (Liu.step L) cs ⟨h, none, some Liu.init⟩
    simp only [List.foldl_cons, List.foldl_nil, refCall, refTemp, h1, h2, hr, Function.update_self]
    rfl

/-- **C164** (violated: shared arrays).  `ClaessonJaved` with several sources: when the caller modifies the array returned by `get_thermal_response_factor_increment`, the temperatures are those of
the modified array. -/
theorem increment_read [Fintype S] (hS : Fintype.card S ≠ 1) (w : Fin (n + 1) → K) (h : ℕ → Arr K S) {cs : List (Call K S)} (hi : IncUntouched cs) (hg : (given h none cs).isSome) (a : Arr K S) :
    cjTemp ((cs ++ [Call.writeInc a]).foldl (cjCall w) ⟨h, none, CJ.initCells⟩) = some (CJ.temporalSuperposition (fun i j k => a i j k) (CJ.run w (opsOf cs))) := by
  obtain ⟨h1, h2⟩ := cj_fold w cs (Or.inr hi) h none CJ.initCells
  obtain ⟨g, hg⟩ := Option.isSome_iff_exists.mp hg
  rw [List.foldl_append]
  simp only [Option.map_none, hg, Option.map_some] at h1 h2
  simp only [List.foldl_cons, List.foldl_nil, cjCall, hS, if_false, cjTemp, h1, h2, Option.map_some]
  rfl

/-- **C164** (violated: witness).  The increments of two sources are set to zero by the caller (to use the array for something else), and the temperature after a unit load is zero; with one source it is one. -/
theorem increment_fails :
    (cjTemp (([.init 0, .next, .set fun _ => 1, .writeInc fun _ _ _ => 0] : List (Call ℚ Bool)).foldl (cjCall fun _ : Fin 5 => 1) ⟨fun _ => ramp, none, CJ.initCells⟩)).map (fun T => T true) = some 0 ∧
    (cjTemp (([.init 0, .next, .set fun _ => 1] : List (Call ℚ Bool)).foldl (cjCall fun _ : Fin 5 => 1) ⟨fun _ => ramp, none, CJ.initCells⟩)).map (fun T => T true) = some 1 ∧
    (cjTemp (([.init 0, .next, .set fun _ => 1, .writeInc fun _ _ _ => 0] : List (Call ℚ Unit)).foldl (cjCall fun _ : Fin 5 => 1) ⟨fun _ => ramp, none, CJ.initCells⟩)).map (fun T => T ()) = some 1 := by
  refine ⟨?_, ?_, ?_⟩
  · have := increment_read (n := 4) (S := Bool) (K := ℚ) (by simp) (fun _ => 1) (fun _ => ramp) (cs := [.init 0, .next, .set fun _ => 1]) (by intro a; simp) (by simp [given]) fun _ _ _ => 0
    rw [List.cons_append, List.cons_append, List.cons_append, List.nil_append] at this
    rw [this]
    simp [CJ.temporalSuperposition]
  · rw [cj_reuse_partial _ _ (Or.inr (by intro a; simp))]
    have := CJ.cj_exact_unit_cells (fun _ : Fin 5 => (1 : ℚ)) (ramp : Arr ℚ Bool) [.next, .set fun _ => 1] trivial (by simp [hist, histStep]) (by simp) true
    simp only [given, Option.map_some, opsOf, this]
    simp [hist, histStep, superpose, ramp]
  · rw [cj_reuse_partial _ _ (Or.inl (by simp))]
    have := CJ.cj_exact_unit_cells (fun _ : Fin 5 => (1 : ℚ)) (ramp : Arr ℚ Unit) [.next, .set fun _ => 1] trivial (by simp [hist, histStep]) (by simp) ()
    simp only [given, Option.map_some, opsOf, this]
    simp [hist, histStep, superpose, ramp]

/-! ### Examples -/

/-- `ClaessonJaved` copies the array: it may be modified after `initialize`. -/
example : cjTemp (([.init 0, .write 0 fun _ _ _ => 7, .next, .set fun _ => 1] : List (Call ℚ Bool)).foldl (cjCall fun _ : Fin 5 => 1) ⟨fun _ => ramp, none, CJ.initCells⟩) =
    some (CJ.temporalSuperposition (CJ.increments fun i j (k : Fin 5) => ramp i j k) (CJ.run (fun _ => 1) [.next, .set fun _ => 1])) := by
  rw [cj_reuse_partial _ _ (Or.inr (by intro a; simp))]
  rfl

/-- Other arrays may be modified. -/
example : Untouched (K := ℚ) (S := Unit) none [.write 0 ramp, .init 0, .write 1 ramp, .init 1, .write 0 ramp, .next] := by simp [Untouched]

/-- The array is multiplied by two after `initialize`, and the temperature after a unit load is two. -/
example : (refTemp (MLAA.temporalSuperposition ⟨20, 3, 2, 2, 2⟩) (([.init 0, .next, .set fun _ => 1, .write 0 fun i j k => 2 * ramp i j k] : List (Call ℚ Unit)).foldl
    (refCall (MLAA.step ⟨20, 3, 2, 2, 2⟩)) ⟨fun _ => ramp, none, some MLAA.init⟩)).map (fun T => T ()) = some 2 := by
  have := (array_read (K := ℚ) (S := Unit) ⟨20, 3, 2, 2, 2⟩ ⟨2, 2, 2, 1, 1, 1, 5⟩ 20 (fun _ => ramp) [.init 0, .next, .set fun _ => 1] (r := 0) rfl fun i j k => 2 * ramp i j k).1
  rw [List.cons_append, List.cons_append, List.cons_append, List.nil_append] at this
  rw [this]
  have hp : Proper (K := ℚ) (S := Unit) [.next, .set fun _ => 1] := trivial
  obtain ⟨s, hs⟩ := Option.isSome_iff_exists.mp ((MLAA.mlaa_run_isSome_iff (K := ℚ) (S := Unit) ⟨20, 3, 2, 2, 2⟩ (by norm_num) _ hp).mpr (by simp [hist, histStep]))
  simp only [opsOf, hs, Option.bind_some]
  rw [MLAA.mlaa_response ⟨20, 3, 2, 2, 2⟩ (by norm_num) (by norm_num) (by norm_num) (by norm_num) _ _ hp (by simp) s hs]
  simp [hist, histStep, superpose, averaged, MLAA.blockSizes, mean, ramp]

/-- A second simulation of three steps after one of three steps. -/
example : ((([.init 0, .next, .next, .next] : List (Call ℚ Unit)) ++ [Call.init 0, Call.next]).foldl (refCall (MLAA.step ⟨3, 2, 1, 1, 1⟩)) ⟨fun _ => ramp, none, some MLAA.init⟩).loads = none :=
  mlaa_second ⟨3, 2, 1, 1, 1⟩ (by norm_num) _ (cs := [.init 0, .next, .next, .next]) trivial (by simp [opsOf, hist, histStep]) (by simp [opsOf]) 0

end Verif.LoadAgg.Reuse
