import Verif.Bore.DistModel

/-!
# Property C19: grouping of distances
-/

set_option linter.unusedSectionVars false

namespace Verif.Bore

variable {K : Type*} [Field K] [LinearOrder K] [IsStrictOrderedRing K]

/-- Specification: a grouping of positive distances within the relative tolerance `tol`: no
group is empty, all members of a group are below `(1 + tol)` times its first member, and the
first member of the following group is not. -/
def Grouped (tol : K) : List (List K) → Prop
  | [] => True
  | g :: gs => (∃ a t, g = a :: t ∧ (∀ x ∈ t, a ≤ x ∧ x < (1 + tol) * a) ∧
      ∀ h ∈ gs.head?, ∃ b t', h = b :: t' ∧ (1 + tol) * a ≤ b) ∧ Grouped tol gs

theorem sorted_split {d P : List K} {a : K} {R : List K} (hd : d.Pairwise (· ≤ ·))
    (h : d = P ++ a :: R) : (∀ x ∈ P, x ≤ a) ∧ (∀ x ∈ R, a ≤ x) := by
  subst h
  rw [List.pairwise_append] at hd
  exact ⟨fun x hx => hd.2.2 x hx a List.mem_cons_self, fun x hx => (List.pairwise_cons.mp hd.2.1).1 x hx⟩

theorem findIdx_aux (P : List K) (a v : K) (R : List K) (hP : ∀ x ∈ P, x < v) (ha : a < v) :
    (P ++ a :: R).findIdx? (fun x => decide (v ≤ x))
      = (R.findIdx? fun x => decide (v ≤ x)).map (· + (P.length + 1)) := by
  rw [List.findIdx?_append]
  have h1 : P.findIdx? (fun x => decide (v ≤ x)) = none := by
    rw [List.findIdx?_eq_none_iff]
    intro x hx
    simpa using hP x hx
  rw [h1, Option.none_or, List.findIdx?_cons]
  simp only [not_le.mpr ha, decide_false, Bool.false_eq_true, if_false, Option.map_map]
  congr 1
  funext i
  simp; omega

/-- The first step splits the remaining distances in the group of the smallest one and the
rest. -/
theorem argmax_split (tol : K) (ht : 0 < tol) (d P : List K) (a : K) (R : List K)
    (hd : d.Pairwise (· ≤ ·)) (hpos : ∀ x ∈ d, 0 < x) (h : d = P ++ a :: R) :
    ∃ T U, R = T ++ U ∧ (∀ x ∈ T, a ≤ x ∧ x < (1 + tol) * a) ∧
      ((U = [] ∧ argmaxGe d ((1 + tol) * a) = 0) ∨
        ∃ b U', U = b :: U' ∧ (1 + tol) * a ≤ b ∧
          argmaxGe d ((1 + tol) * a) = P.length + 1 + T.length) := by
  obtain ⟨hP, hR⟩ := sorted_split hd h
  have ha : 0 < a := hpos a (by rw [h]; simp)
  have hav : a < (1 + tol) * a := by nlinarith
  have hf : d.findIdx? (fun x => decide ((1 + tol) * a ≤ x))
      = (R.findIdx? fun x => decide ((1 + tol) * a ≤ x)).map (· + (P.length + 1)) := by
    rw [h]; exact findIdx_aux P a ((1 + tol) * a) R (fun x hx => lt_of_le_of_lt (hP x hx) hav) hav
  cases hR' : R.findIdx? (fun x => decide ((1 + tol) * a ≤ x)) with
  | none =>
    rw [hR'] at hf
    rw [List.findIdx?_eq_none_iff] at hR'
    refine ⟨R, [], by simp, fun x hx => ⟨hR x hx, by simpa using hR' x hx⟩, Or.inl ⟨rfl, ?_⟩⟩
    rw [argmaxGe, hf]; rfl
  | some i =>
    rw [hR'] at hf
    rw [List.findIdx?_eq_some_iff_getElem] at hR'
    obtain ⟨hi, hge, hlt⟩ := hR'
    refine ⟨R.take i, R.drop i, (List.take_append_drop i R).symm, ?_, Or.inr ⟨R[i], R.drop (i + 1), ?_, ?_, ?_⟩⟩
    · intro x hx
      refine ⟨hR x (List.mem_of_mem_take hx), ?_⟩
      obtain ⟨j, hj, rfl⟩ := List.mem_iff_getElem.mp hx
      rw [List.length_take] at hj
      have := hlt j (by omega)
      rw [List.getElem_take]
      simpa using this
    · exact List.drop_eq_getElem_cons hi
    · simpa using hge
    · rw [argmaxGe, hf]
      simp only [Option.map_some, Option.getD_some, List.length_take]
      omega

theorem slice_aux (P S T : List K) : ((P ++ (S ++ T)).drop P.length).take S.length = S := by
  simp

/-- The loop of `unique_distance` from any point of the sorted list. -/
theorem unique_loop (tol : K) (ht : 0 < tol) (d : List K) (hd : d.Pairwise (· ≤ ·))
    (hpos : ∀ x ∈ d, 0 < x) (n : ℕ) (P S : List K) (hn : S.length ≤ n) (h : d = P ++ S)
    (hS : S ≠ []) (j1 : ℕ) (hj1 : 0 < j1) (dis : List K) (w : List ℕ) :
    ∃ s gs, Loop (uCond d) (uBody tol d) ⟨P.length, j1, dis, w⟩ s ∧ gs.flatten = S ∧
      Grouped tol gs ∧ s.dis = dis ++ gs.map npMean ∧ s.wDis = w ++ gs.map List.length := by
  induction n generalizing P S j1 dis w with
  | zero => exact absurd (List.length_eq_zero_iff.mp (by omega)) hS
  | succ n ih =>
    obtain ⟨a, R, rfl⟩ := List.exists_cons_of_ne_nil hS
    obtain ⟨T, U, hRU, hT, hcase⟩ := argmax_split tol ht d P a R hd hpos h
    have hget : d.getD P.length 0 = a := by rw [h]; simp
    have hcond : uCond d ⟨P.length, j1, dis, w⟩ := by
      refine ⟨?_, hj1⟩
      rw [h]; simp
    rcases hcase with ⟨rfl, harg⟩ | ⟨b, U', rfl, hb, harg⟩
    · have hbody : uBody tol d ⟨P.length, j1, dis, w⟩
          = ⟨0, 0, dis ++ [npMean (a :: R)], w ++ [(a :: R).length]⟩ := by
        simp only [uBody, hget, harg]
        rw [if_neg (by omega)]
        simp [h]
      refine ⟨⟨0, 0, dis ++ [npMean (a :: R)], w ++ [(a :: R).length]⟩, [a :: R], ?_, by simp, ?_,
        rfl, rfl⟩
      · refine Loop.step hcond ?_
        rw [hbody]
        exact Loop.done (by simp [uCond])
      · refine ⟨⟨a, R, rfl, ?_, by simp⟩, trivial⟩
        rw [hRU, List.append_nil]
        exact hT
    · have hlen : P.length + 1 + T.length = (P ++ a :: T).length := by simp; omega
      have hd' : d = (P ++ a :: T) ++ (b :: U') := by rw [h, hRU]; simp
      have hbody : uBody tol d ⟨P.length, j1, dis, w⟩
          = ⟨(P ++ a :: T).length, (P ++ a :: T).length, dis ++ [npMean (a :: T)],
              w ++ [(a :: T).length]⟩ := by
        simp only [uBody, hget, harg]
        rw [if_pos (by omega), hlen]
        have h1 : (P ++ a :: T).length - P.length = (a :: T).length := by simp
        rw [h1, hd', List.append_assoc, slice_aux]
      obtain ⟨s, gs, hl, hfl, hgr, hdis, hw⟩ := ih (P ++ a :: T) (b :: U')
        (by rw [hRU] at hn; simp at hn ⊢; omega) hd' (by simp) (P ++ a :: T).length (by simp)
        (dis ++ [npMean (a :: T)]) (w ++ [(a :: T).length])
      refine ⟨s, (a :: T) :: gs, Loop.step hcond (by rw [hbody]; exact hl), ?_, ?_, ?_, ?_⟩
      · rw [List.flatten_cons, hfl, hRU]; simp
      · refine ⟨⟨a, T, rfl, hT, ?_⟩, hgr⟩
        cases gs with
        | nil => simp at hfl
        | cons g gs =>
          intro g' hg'
          simp only [List.head?_cons, Option.mem_def, Option.some.injEq] at hg'
          subst hg'
          obtain ⟨⟨a', t', rfl, -⟩, -⟩ := hgr
          simp only [List.flatten_cons, List.cons_append, List.cons.injEq] at hfl
          exact ⟨a', t', rfl, by rw [hfl.1]; exact hb⟩
      · rw [hdis]; simp
      · rw [hw]; simp

theorem sum_mean_length (gs : List (List K)) (tol : K) (h : Grouped tol gs) :
    (List.zipWith (fun m (w : ℕ) => m * (w : K)) (gs.map npMean) (gs.map List.length)).sum
      = gs.flatten.sum := by
  induction gs with
  | nil => simp
  | cons g gs ih =>
    obtain ⟨⟨a, t, rfl, -⟩, hgs⟩ := h
    simp only [List.map_cons, List.zipWith_cons_cons, List.sum_cons, List.flatten_cons,
      List.sum_append, ih hgs]
    congr 1
    rw [npMean, div_mul_cancel₀]
    · simp
    · rw [List.length_cons]; positivity

/-- **C19** (`unique_distance`).  For all positive distances and tolerance, the loop terminates;
the sorted distances are split into consecutive groups within the tolerance; each returned
distance is the mean of its group and each weight its size.  Hence the weights add up to the
number of distances and the weighted sum of the returned distances is the sum of all
distances. -/
theorem unique_distance_groups (tol : K) (ht : 0 < tol) (all : List K) (hpos : ∀ x ∈ all, 0 < x) :
    ∃ dis wDis gs, UniqueDistance tol all dis wDis ∧
      gs.flatten.Perm all ∧ gs.flatten.Pairwise (· ≤ ·) ∧ Grouped tol gs ∧
      dis = gs.map npMean ∧ wDis = gs.map List.length ∧
      wDis.sum = all.length ∧
      (List.zipWith (fun m (w : ℕ) => m * (w : K)) dis wDis).sum = all.sum := by
  obtain ⟨d, hdef⟩ : ∃ d, d = all.insertionSort (· ≤ ·) := ⟨_, rfl⟩
  have hperm : d.Perm all := hdef ▸ List.perm_insertionSort _ _
  have hsort : d.Pairwise (· ≤ ·) := hdef ▸ List.pairwise_insertionSort _ _
  have hposd : ∀ x ∈ d, 0 < x := fun x hx => hpos x (hperm.mem_iff.mp hx)
  have key : ∃ s gs, Loop (uCond d) (uBody tol d) ⟨0, 1, [], []⟩ s ∧ gs.flatten = d ∧
      Grouped tol gs ∧ s.dis = gs.map npMean ∧ s.wDis = gs.map List.length := by
    by_cases hne : d = []
    · refine ⟨⟨0, 1, [], []⟩, [], Loop.done ?_, by simp [hne], trivial, rfl, rfl⟩
      simp [uCond, hne]
    · obtain ⟨s, gs, h1, h2, h3, h4, h5⟩ := unique_loop tol ht d hsort hposd d.length [] d le_rfl
        (by simp) hne 1 (by omega) [] []
      exact ⟨s, gs, h1, h2, h3, by simpa using h4, by simpa using h5⟩
  obtain ⟨s, gs, h1, h2, h3, h4, h5⟩ := key
  refine ⟨s.dis, s.wDis, gs, ⟨s, hdef ▸ h1, rfl, rfl⟩, h2 ▸ hperm, h2 ▸ hsort, h3, h4, h5, ?_, ?_⟩
  · rw [h5, ← List.length_flatten, h2, hperm.length_eq]
  · rw [h4, h5, sum_mean_length gs tol h3, h2, hperm.sum_eq]

/-- **C19** (determinism).  The function has a single result. -/
theorem unique_distance_unique (tol : K) (all : List K) {dis dis' : List K} {w w' : List ℕ}
    (h : UniqueDistance tol all dis w) (h' : UniqueDistance tol all dis' w') :
    dis = dis' ∧ w = w' := by
  obtain ⟨s, hs, rfl, rfl⟩ := h
  obtain ⟨s', hs', rfl, rfl⟩ := h'
  rw [hs.det hs']
  exact ⟨rfl, rfl⟩

/-! ### The similarities solver -/

/-- Specification: the groups of sorted positions are labelled `k, k+1, ...`. -/
def Labelled (indices : ℕ → ℕ) : ℕ → List (List ℕ) → Prop
  | _, [] => True
  | k, q :: qs => (∀ p ∈ q, indices p = k) ∧ Labelled indices (k + 1) qs

theorem labelled_congr (f g : ℕ → ℕ) (k : ℕ) (qs : List (List ℕ))
    (h : ∀ p ∈ qs.flatten, f p = g p) (hf : Labelled f k qs) : Labelled g k qs := by
  induction qs generalizing k with
  | nil => trivial
  | cons q qs ih =>
    refine ⟨fun p hp => ?_, ih _ (fun p hp => h p (by simp at hp ⊢; exact Or.inr hp)) hf.2⟩
    rw [← h p (by simp [hp])]; exact hf.1 p hp

theorem find_loop (tol : K) (ht : 0 < tol) (f : ℕ → K) (isort : List ℕ) (hnd : isort.Nodup)
    (d : List K) (hdi : d = isort.map f) (hd : d.Pairwise (· ≤ ·))
    (hpos : ∀ x ∈ d, 0 < x) (n : ℕ) (P S : List ℕ) (hn : S.length ≤ n) (h : isort = P ++ S)
    (hS : S ≠ []) (j1 : ℕ) (hj1 : 0 < j1) (nd : ℕ) (dis : List K) (ind : ℕ → ℕ) :
    ∃ s qs, Loop (sCond d) (sBody tol d isort) ⟨P.length, j1, nd, dis, ind⟩ s ∧ qs.flatten = S ∧
      Grouped tol (qs.map (List.map f)) ∧ s.distances = dis ++ qs.map (fun q => npMean (q.map f)) ∧
      Labelled s.indices nd qs ∧ ∀ p, p ∉ S → s.indices p = ind p := by
  induction n generalizing P S j1 nd dis ind with
  | zero => exact absurd (List.length_eq_zero_iff.mp (by omega)) hS
  | succ n ih =>
    obtain ⟨a, R, rfl⟩ := List.exists_cons_of_ne_nil hS
    have hdP : d = P.map f ++ f a :: R.map f := by rw [hdi, h]; simp
    obtain ⟨T', U', hRU', hT', hcase⟩ := argmax_split tol ht d (P.map f) (f a) (R.map f) hd hpos hdP
    obtain ⟨T, U, hRU, hTT, hUU⟩ : ∃ T U, R = T ++ U ∧ T.map f = T' ∧ U.map f = U' :=
      List.map_eq_append_iff.mp hRU'
    rw [List.length_map] at hcase
    have hget : d.getD P.length 0 = f a := by rw [hdP]; simp
    have hcond : sCond d ⟨P.length, j1, nd, dis, ind⟩ := by
      refine ⟨?_, hj1⟩
      rw [hdP]; simp
    rcases hcase with ⟨rfl, harg⟩ | ⟨b', U'', rfl, hb, harg⟩
    · have hU : U = [] := by simpa using hUU
      subst hU
      have hRT : R = T := by simpa using hRU
      subst hRT
      have hbody : sBody tol d isort ⟨P.length, j1, nd, dis, ind⟩
          = ⟨0, 0, nd + 1, dis ++ [npMean ((a :: R).map f)], assign ind (a :: R) nd⟩ := by
        simp only [sBody, hget, harg]
        rw [if_neg (by omega)]
        have e1 : d.drop P.length = (a :: R).map f := by rw [hdi, h]; simp
        have e2 : isort.drop P.length = a :: R := by rw [h]; simp
        rw [e1, e2]
      refine ⟨⟨0, 0, nd + 1, dis ++ [npMean ((a :: R).map f)], assign ind (a :: R) nd⟩, [a :: R],
        ?_, by simp, ?_, rfl, ?_, ?_⟩
      · refine Loop.step hcond ?_
        rw [hbody]
        exact Loop.done (by simp [sCond])
      · refine ⟨⟨f a, R.map f, rfl, ?_, by simp⟩, trivial⟩
        rw [hTT]
        exact hT'
      · exact ⟨fun p hp => by simp only [assign]; rw [if_pos hp], trivial⟩
      · intro p hp
        simp only [assign]; rw [if_neg hp]
    · obtain ⟨b, U, rfl, hfb, hUU⟩ : ∃ b V, U = b :: V ∧ f b = b' ∧ V.map f = U'' :=
        List.map_eq_cons_iff.mp hUU
      subst hfb
      have hTlen : T'.length = T.length := by rw [← hTT]; simp
      have hlen : P.length + 1 + T.length = (P ++ a :: T).length := by simp; omega
      have hd' : isort = (P ++ a :: T) ++ (b :: U) := by rw [h, hRU]; simp
      have hbody : sBody tol d isort ⟨P.length, j1, nd, dis, ind⟩
          = ⟨(P ++ a :: T).length, (P ++ a :: T).length, nd + 1, dis ++ [npMean ((a :: T).map f)],
              assign ind (a :: T) nd⟩ := by
        simp only [sBody, hget, harg, hTlen]
        rw [if_pos (by omega), hlen]
        have h1 : (P ++ a :: T).length - P.length = (a :: T).length := by simp
        have e1 : (d.drop P.length).take (a :: T).length = (a :: T).map f := by
          rw [hdi, hd']; simp
        have e2 : (isort.drop P.length).take (a :: T).length = a :: T := by rw [hd']; simp
        rw [h1, e1, e2]
      obtain ⟨s, qs, hl, hfl, hgr, hdis, hlab, hun⟩ := ih (P ++ a :: T) (b :: U)
        (by rw [hRU] at hn; simp at hn ⊢; omega) hd' (by simp) (P ++ a :: T).length (by simp)
        (nd + 1) (dis ++ [npMean ((a :: T).map f)]) (assign ind (a :: T) nd)
      have hdisj : ∀ p ∈ a :: T, p ∉ b :: U := by
        intro p hp hp'
        rw [hd', List.append_assoc] at hnd
        have := (List.nodup_append.mp (List.nodup_append.mp hnd).2.1).2.2 p hp p hp'
        exact this rfl
      refine ⟨s, (a :: T) :: qs, Loop.step hcond (by rw [hbody]; exact hl), ?_, ?_, ?_, ?_, ?_⟩
      · rw [List.flatten_cons, hfl, hRU]; simp
      · refine ⟨⟨f a, T.map f, rfl, by rw [hTT]; exact hT', ?_⟩, hgr⟩
        cases qs with
        | nil => simp at hfl
        | cons g qs =>
          intro g' hg'
          simp only [List.map_cons, List.head?_cons, Option.mem_def, Option.some.injEq] at hg'
          subst hg'
          obtain ⟨⟨a', t', hg, -⟩, -⟩ := hgr
          obtain ⟨c, V, rfl, rfl, rfl⟩ := List.map_eq_cons_iff.mp hg
          simp only [List.flatten_cons, List.cons_append, List.cons.injEq] at hfl
          exact ⟨_, _, rfl, by rw [hfl.1]; exact hb⟩
      · rw [hdis]; simp
      · refine ⟨fun p hp => ?_, hlab⟩
        rw [hun p (hdisj p hp)]
        simp only [assign]; rw [if_pos hp]
      · intro p hp
        rw [hRU] at hp
        rw [hun p (fun hc => hp (by simp at hc ⊢; tauto))]
        simp only [assign]
        rw [if_neg (fun hc => hp (by simp at hc ⊢; tauto))]

/-- **C19** (similarities solver).  For all positive distances and tolerance and every sorting
permutation, the loop terminates; the pairs are split into groups of distances within the
tolerance; the `k`-th returned distance is the mean of the `k`-th group, and the index of
every pair is the number of its group. -/
theorem find_distances_groups (tol : K) (ht : 0 < tol) (all : List K) (hpos : ∀ x ∈ all, 0 < x)
    (isort : List ℕ) (hperm : isort.Perm (List.range all.length))
    (hsort : (isort.map fun p : ℕ => all.getD p 0).Pairwise (· ≤ ·)) (init : ℕ → ℕ) :
    ∃ distances indices qs, FindDistances tol all isort init distances indices ∧
      qs.flatten.Perm (List.range all.length) ∧
      Grouped tol (qs.map (List.map fun p : ℕ => all.getD p 0)) ∧
      distances = qs.map (fun q => npMean (q.map fun p : ℕ => all.getD p 0)) ∧
      Labelled indices 0 qs := by
  have hposd : ∀ x ∈ isort.map (fun p : ℕ => all.getD p 0), 0 < x := by
    intro x hx
    rw [List.mem_map] at hx
    obtain ⟨p, hp, rfl⟩ := hx
    have hlt : p < all.length := List.mem_range.mp (hperm.mem_iff.mp hp)
    rw [List.getD_eq_getElem _ _ hlt]
    exact hpos _ (List.getElem_mem hlt)
  by_cases hne : isort = []
  · subst hne
    refine ⟨[], init, [], ⟨⟨0, 1, 0, [], init⟩, Loop.done (by simp [sCond]), rfl, rfl⟩, ?_, trivial, rfl, trivial⟩
    simpa using hperm
  · obtain ⟨s, qs, h1, h2, h3, h4, h5, -⟩ := find_loop tol ht (fun p : ℕ => all.getD p 0) isort
      (hperm.nodup_iff.mpr List.nodup_range) _ rfl hsort hposd isort.length [] isort le_rfl
      (by simp) hne 1 (by omega) 0 [] init
    exact ⟨s.distances, s.indices, qs, ⟨s, h1, rfl, rfl⟩, h2 ▸ hperm, h3, by simpa using h4, h5⟩

/-- Non-vacuity: distances 1, 2, 2.01 with 1 % tolerance give two groups. -/
example : Grouped (1 / 100 : ℚ) [[1], [2, 201 / 100]] := by
  refine ⟨⟨1, [], rfl, by simp, ?_⟩, ⟨2, [201 / 100], rfl, ?_, by simp⟩, trivial⟩
  · intro h hh
    simp only [List.head?_cons, Option.mem_def, Option.some.injEq] at hh
    exact ⟨2, [201 / 100], hh.symm, by norm_num⟩
  · intro x hx
    simp only [List.mem_singleton] at hx
    subst hx
    norm_num

end Verif.Bore
