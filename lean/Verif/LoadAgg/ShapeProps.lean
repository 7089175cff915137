import Verif.LoadAgg.ShapeModel
import Mathlib.Data.Rat.Defs
import Mathlib.Tactic.NormNum
import Mathlib.Tactic.FinCases

/-!
# The temperatures returned by the load aggregation schemes, used to compute the next loads
-/

namespace Verif.LoadAgg

variable {K : Type*} [Field K] {n : ℕ}

/-- Specification of an array `x` that holds the values `v` of the sources: numpy stores these values, and the difference of the values `T` of the sources (or of a number `c`) and `x` is stored as the
differences for every source. -/
structure PerSource (x : Arr K) (v : Fin n → K) : Prop where
  store : x.store n = some v
  sub : ∀ (f : K → K) (T : Fin n → K), ∃ y, (Arr.ofVec T).sub x = some y ∧ (y.map f).store n = some fun i => f (T i - v i)
  subNum : ∀ (f : K → K) (c : K), ∃ y, (Arr.ofNum c).sub x = some y ∧ (y.map f).store n = some fun i => f (c - v i)

theorem broadcast_self (n : ℕ) : broadcast [n] [n] = some [n] := by
  simp [broadcast, broadcastRev, broadcastDim]

theorem dropLead_one (n : ℕ) : dropLead [n] = [n] := by
  unfold dropLead
  split
  · rename_i h
    simp at h
  · rfl

theorem pick_self (n : ℕ) (i : Fin n) : pick [n] [i.val] = [i.val] := by
  unfold pick
  simp only [List.reverse_cons, List.reverse_nil, List.nil_append, List.zipWith_cons_cons, List.zipWith_nil_left, List.cons.injEq, and_true]
  split_ifs with h
  · have := i.isLt
    omega
  · rfl

theorem ofVec_val (v : Fin n → K) (i : Fin n) : (Arr.ofVec v).val [i.val] = v i := by
  simp [Arr.ofVec]

omit [Field K] in
/-- One-dimensional arrays are stored as they are. -/
theorem store_vec {x : Arr K} (hs : x.shape = [n]) {v : Fin n → K} (hv : ∀ i : Fin n, x.val [i.val] = v i) : x.store n = some v := by
  unfold Arr.store
  rw [hs, dropLead_one]
  dsimp only
  rw [if_pos (broadcast_self n)]
  congr 1
  funext i
  rw [pick_self]
  exact hv i

theorem ofVec_perSource (v : Fin n → K) : PerSource (Arr.ofVec v) v where
  store := store_vec rfl (ofVec_val v)
  sub f T := by
    refine ⟨⟨[n], _⟩, by unfold Arr.sub; rw [show (Arr.ofVec T).shape = [n] from rfl, show (Arr.ofVec v).shape = [n] from rfl, broadcast_self]; rfl, ?_⟩
    refine store_vec rfl fun i => ?_
    show f ((Arr.ofVec T).val (pick [n] [i.val]) - (Arr.ofVec v).val (pick [n] [i.val])) = _
    rw [pick_self, ofVec_val, ofVec_val]
  subNum f c := by
    refine ⟨⟨[n], _⟩, by unfold Arr.sub; rw [show (Arr.ofNum c).shape = [] from rfl, show (Arr.ofVec v).shape = [n] from rfl]; rfl, ?_⟩
    refine store_vec rfl fun i => ?_
    show f (c - (Arr.ofVec v).val (pick [n] [i.val])) = _
    rw [pick_self, ofVec_val]

/-- A number stands for the value of a single source. -/
theorem ofNum_perSource (v : Fin 1 → K) : PerSource (Arr.ofNum (v 0)) v where
  store := by
    refine congrArg some (funext fun i => ?_)
    rw [Fin.fin_one_eq_zero i]
    rfl
  sub f T := ⟨_, rfl, congrArg some (funext fun i => by rw [Fin.fin_one_eq_zero i]; rfl)⟩
  subNum f c := ⟨_, rfl, congrArg some (funext fun i => by rw [Fin.fin_one_eq_zero i]; rfl)⟩

/-- The column of a single source. -/
theorem column_perSource (v : Fin 1 → K) : PerSource (mlaaArray v) v where
  store := congrArg some (funext fun i => by rw [Fin.fin_one_eq_zero i]; rfl)
  sub f T := ⟨_, rfl, congrArg some (funext fun i => by rw [Fin.fin_one_eq_zero i]; rfl)⟩
  subNum f c := ⟨_, rfl, congrArg some (funext fun i => by rw [Fin.fin_one_eq_zero i]; rfl)⟩

/-- **C153** (Claesson and Javed).  The temperatures returned are values per source, for all accepted shapes of the response factors; loads computed from them with any function are stored per source. -/
theorem cj_shape {m ndim : ℕ} (hn : accepts n ndim) (dg : Fin n → Fin n → Fin (m + 1) → K) (q : CJ.Cells K (Fin n) m) :
    PerSource (cjOut ndim dg q) (CJ.temporalSuperposition dg q) ∧
    ∀ (f : K → K) (T : Fin n → K), ∃ y, (Arr.ofVec T).sub (cjOut ndim dg q) = some y ∧
      cjSet q (y.map f) = some (CJ.setCurrentLoad q fun i => f (T i - CJ.temporalSuperposition dg q i)) := by
  have h : PerSource (cjOut ndim dg q) (CJ.temporalSuperposition dg q) := by
    unfold cjOut cjArray
    split_ifs with h1
    · have hn1 : n = 1 := by
        rcases hn with h | h
        · exact h
        · omega
      subst hn1
      exact ofNum_perSource (CJ.temporalSuperposition dg q)
    · exact ofVec_perSource _
  refine ⟨h, fun f T => ?_⟩
  obtain ⟨y, h1, h2⟩ := h.sub f T
  exact ⟨y, h1, by unfold cjSet; rw [h2]; rfl⟩

/-- **C153** (Liu).  The same for the scheme of Liu. -/
theorem liu_shape (P : Liu.Params) (Ng : ℕ) (G : Fin n → Fin n → ℕ → K) (σ : Liu.State K (Fin n)) :
    PerSource (liuOut P Ng G σ) (Liu.temporalSuperposition P Ng G σ) ∧
    ∀ (f : K → K) (T : Fin n → K), ∃ y, (Arr.ofVec T).sub (liuOut P Ng G σ) = some y ∧
      liuSet σ (y.map f) = some (Liu.setCurrentLoad σ fun i => f (T i - Liu.temporalSuperposition P Ng G σ i)) := by
  have h : PerSource (liuOut P Ng G σ) (Liu.temporalSuperposition P Ng G σ) := ofVec_perSource _
  refine ⟨h, fun f T => ?_⟩
  obtain ⟨y, h1, h2⟩ := h.sub f T
  exact ⟨y, h1, by unfold liuSet; rw [h2]; rfl⟩

/-- **C153** (MLAA, one source).  The full property for MLAA would be that of `cj_shape` for every number of sources; it is missing for several sources, for which `mlaa_column` shows that it fails. -/
theorem mlaa_shape_partial (P : MLAA.Params) (G : Fin 1 → Fin 1 → ℕ → K) (σ : MLAA.State K (Fin 1)) {v : Fin 1 → K} (hv : MLAA.temporalSuperposition P G σ = some v) :
    ∃ x, mlaaOut P G σ = some x ∧ PerSource x v ∧
    ∀ (f : K → K) (T : Fin 1 → K), ∃ y, (Arr.ofVec T).sub x = some y ∧ mlaaSet P σ (y.map f) = some (MLAA.setCurrentLoad P σ fun i => f (T i - v i)) := by
  refine ⟨mlaaArray v, by unfold mlaaOut; rw [hv]; rfl, column_perSource v, fun f T => ?_⟩
  obtain ⟨y, h1, h2⟩ := (column_perSource v).sub f T
  exact ⟨y, h1, by unfold mlaaSet; rw [h2]; rfl⟩

omit [Field K] in
theorem store_column {x : Arr K} {m : ℕ} (hn : n ≠ 1) (hs : x.shape = [n, m]) (hm : m = 1 ∨ m = n) : x.store n = none := by
  have hd : dropLead [n, m] = [n, m] := by
    unfold dropLead
    split
    · rename_i h
      simp only [List.cons.injEq] at h
      exact absurd h.1 hn
    · rfl
  have hb : broadcast [n, m] [n] ≠ some [n] := by
    rcases hm with rfl | rfl
    · have h1 : (1 : ℕ) ≠ n := fun h => hn h.symm
      simp [broadcast, broadcastRev, broadcastDim, h1]
    · simp [broadcast, broadcastRev, broadcastDim]
  unfold Arr.store
  rw [hs, hd]
  dsimp only
  rw [if_neg hb]

/-- **C153** (MLAA, several sources): the property fails for every state and every number of sources other than one.  The temperatures are returned as a column: the difference of the values `T` of the sources
and the column is a square matrix of all differences, and loads computed from it, or from the column itself, or from its difference with a number, are refused by `set_current_load`. -/
theorem mlaa_column (hn : n ≠ 1) (P : MLAA.Params) (G : Fin n → Fin n → ℕ → K) (σ : MLAA.State K (Fin n)) {v : Fin n → K} (hv : MLAA.temporalSuperposition P G σ = some v) :
    ∃ x, mlaaOut P G σ = some x ∧ x.shape = [n, 1] ∧ mlaaSet P σ x = none ∧
    (∀ (f : K → K) (T : Fin n → K), ∃ y, (Arr.ofVec T).sub x = some y ∧ y.shape = [n, n] ∧ (∀ i j : Fin n, y.val [i.val, j.val] = T j - v i) ∧ mlaaSet P σ (y.map f) = none) ∧
    ∀ (f : K → K) (c : K), ∃ y, (Arr.ofNum c).sub x = some y ∧ y.shape = [n, 1] ∧ (∀ i : Fin n, y.val [i.val, 0] = c - v i) ∧ mlaaSet P σ (y.map f) = none := by
  have hpick : ∀ i j : ℕ, pick [n, 1] [i, j] = [i, 0] := fun i j => by simp [pick, hn]
  have hval : ∀ i : Fin n, (mlaaArray v).val [i.val, 0] = v i := fun i => by
    show (Arr.ofVec v).val [i.val, 0] = v i
    simp [Arr.ofVec]
  refine ⟨mlaaArray v, by unfold mlaaOut; rw [hv]; rfl, rfl, ?_, fun f T => ?_, fun f c => ?_⟩
  · unfold mlaaSet
    rw [store_column hn rfl (Or.inl rfl)]
    rfl
  · have hb : broadcast [n] [n, 1] = some [n, n] := by
      simp [broadcast, broadcastRev, broadcastDim, hn]
    refine ⟨⟨[n, n], _⟩, by unfold Arr.sub; rw [show (Arr.ofVec T).shape = [n] from rfl, show (mlaaArray v).shape = [n, 1] from rfl, hb]; rfl, rfl, fun i j => ?_, ?_⟩
    · show (Arr.ofVec T).val (pick [n] [i.val, j.val]) - (mlaaArray v).val (pick [n, 1] [i.val, j.val]) = _
      rw [hpick, hval, show pick [n] [i.val, j.val] = [j.val] by simp [pick, hn], ofVec_val]
    · unfold mlaaSet
      rw [store_column hn rfl (Or.inr rfl)]
      rfl
  · refine ⟨⟨[n, 1], _⟩, by unfold Arr.sub; rw [show (Arr.ofNum c).shape = [] from rfl, show (mlaaArray v).shape = [n, 1] from rfl]; rfl, rfl, fun i => ?_, ?_⟩
    · show c - (mlaaArray v).val (pick [n, 1] [i.val, 0]) = _
      rw [hpick, hval]
    · unfold mlaaSet
      rw [store_column hn rfl (Or.inl rfl)]
      rfl

/-- **C153** (loads accepted).  A one-dimensional array of `k` loads is accepted by `set_current_load` of the three schemes if it has one value per source, or a single value, which is then the load
of every source; all other lengths are refused. -/
theorem load_accepted {k : ℕ} (w : Fin k → K) (h0 : 0 < k) :
    ((Arr.ofVec w).store n).isSome = decide (k = n ∨ k = 1) ∧ ∀ (h1 : k = 1) (v : Fin n → K), (Arr.ofVec w).store n = some v → ∀ i, v i = w ⟨0, h0⟩ := by
  have hd : dropLead (Arr.ofVec w).shape = [k] := dropLead_one k
  constructor
  · unfold Arr.store
    rw [hd]
    dsimp only
    by_cases hk : k = n
    · subst hk
      rw [if_pos (broadcast_self k)]
      simp
    · by_cases h1 : k = 1
      · subst h1
        rw [if_pos (by simp [broadcast, broadcastRev, broadcastDim, hk])]
        simp
      · by_cases hn1 : n = 1
        · subst hn1
          rw [if_neg (by simp [broadcast, broadcastRev, broadcastDim, h1])]
          simp [h1]
        · rw [if_neg (by simp [broadcast, broadcastRev, broadcastDim, hk, h1, hn1])]
          simp [hk, h1]
  · rintro rfl v hv i
    unfold Arr.store at hv
    rw [hd] at hv
    dsimp only at hv
    split_ifs at hv with hb
    obtain rfl := Option.some.inj hv
    rfl

/-- **C153** (other lengths).  The difference of `k` ground temperatures and the temperatures of `n` sources exists only if the lengths agree or one of them is one; otherwise an exception is raised. -/
theorem sub_lengths {k : ℕ} (T : Fin k → K) (P : Liu.Params) (Ng : ℕ) (G : Fin n → Fin n → ℕ → K) (σ : Liu.State K (Fin n)) :
    ((Arr.ofVec T).sub (liuOut P Ng G σ)).isSome = decide (k = n ∨ k = 1 ∨ n = 1) := by
  unfold Arr.sub
  rw [show (Arr.ofVec T).shape = [k] from rfl, show (liuOut P Ng G σ).shape = [n] from rfl, Option.isSome_map]
  by_cases hk : k = n
  · subst hk; rw [broadcast_self]; simp
  · by_cases h1 : k = 1
    · simp [broadcast, broadcastRev, broadcastDim, h1]
      split_ifs <;> simp
    · by_cases hn : n = 1
      · simp [broadcast, broadcastRev, broadcastDim, h1, hn]
      · simp [broadcast, broadcastRev, broadcastDim, hk, h1, hn]

/-- **C153** (shape for Claesson and Javed).  A number is returned exactly when the response factors were one-dimensional, otherwise a one-dimensional array. -/
theorem cj_scalar {m : ℕ} (ndim : ℕ) (dg : Fin n → Fin n → Fin (m + 1) → K) (q : CJ.Cells K (Fin n) m) :
    (cjOut ndim dg q).shape = if ndim = 1 then [] else [n] := by
  unfold cjOut cjArray
  split_ifs <;> rfl

/-- Non-vacuity: two loads for three sources are refused, one is given to all. -/
example : ((Arr.ofVec ![(1 : ℚ), 2]).store 3).isSome = false ∧ ∃ v, (Arr.ofVec ![(1 : ℚ)]).store 3 = some v ∧ v 2 = 1 := by
  refine ⟨by rw [(load_accepted _ (by norm_num)).1]; rfl, ?_⟩
  obtain ⟨v, hv⟩ := Option.isSome_iff_exists.mp (show ((Arr.ofVec ![(1 : ℚ)]).store 3).isSome = true by rw [(load_accepted _ (by norm_num)).1]; rfl)
  exact ⟨v, hv, by rw [(load_accepted _ (by norm_num)).2 rfl v hv 2]; rfl⟩

/-- Non-vacuity: two sources with MLAA after one time step, with the loads 1 and 2. -/
example : ∃ (σ : MLAA.State ℚ (Fin 2)) (v : Fin 2 → ℚ), MLAA.run ⟨10, 2, 1, 1, 1⟩ [.next, .set ![1, 2]] = some σ ∧
    MLAA.temporalSuperposition ⟨10, 2, 1, 1, 1⟩ (fun i j _ => if i = j then 3 else 1) σ = some v ∧ v 0 = 5 ∧ v 1 = 7 := by
  refine ⟨_, _, rfl, rfl, ?_, ?_⟩ <;> norm_num [MLAA.init, MLAA.setCurrentLoad, Fin.sum_univ_two, Function.update]

/-- Non-vacuity: two sources with three-dimensional response factors, one source with one-dimensional ones. -/
example : accepts 2 3 ∧ accepts 1 1 ∧ (cjOut (n := 2) (m := 0) (K := ℚ) 3 (fun i j _ => if i = j then 3 else 1) fun i _ => ![1, 2] i).shape = [2] ∧
    (cjOut (n := 1) (m := 0) (K := ℚ) 1 (fun _ _ _ => 3) fun _ _ => 1).shape = [] := ⟨Or.inr rfl, Or.inl rfl, rfl, rfl⟩

end Verif.LoadAgg
