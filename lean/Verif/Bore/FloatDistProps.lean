import Verif.Bore.FloatDistLemmas

/-!
# Property C154: grouping of distances with the arithmetic of the machine

C19 is about exact numbers.  With `binary64`, the sum `1 + disTol` is 1 for all tolerances up to `2⁻⁵³` (about 1.1e-16), which the solvers accept since they are positive.  Every distance is
then outside of the tolerance to itself, and the first turn of the loop merges all distances into one.  For all larger tolerances the groups are those of the tolerance, up to a factor
of `1 ± 2⁻⁵⁰`.
-/

namespace Verif.Bore

open Verif.Num

/-- Specification: sorted groups; the members of a group are at most `hi` times its first member, and the first member of the following group is larger and at least `lo` times it. -/
def SplitWithin (lo hi : ℝ) : List (List ℝ) → Prop
  | [] => True
  | g :: gs => (∃ a t, g = a :: t ∧ (∀ x ∈ t, a ≤ x ∧ x ≤ hi * a) ∧ ∀ h ∈ gs.head?, ∃ b t', h = b :: t' ∧ a < b ∧ lo * a ≤ b) ∧ SplitWithin lo hi gs

theorem GroupedBy.split {tol : ℝ} (ht : 2 ^ (-53 : ℤ) < tol) (gs : List (List ℝ)) (hfl : ∀ x ∈ gs.flatten, IsFloat binary64 x ∧ 2 ^ (-1022 : ℤ) ≤ x) (h : GroupedBy (threshold binary64 tol) gs) :
    SplitWithin ((1 + tol) * (1 - 2 ^ (-50 : ℤ))) ((1 + tol) * (1 + 2 ^ (-50 : ℤ))) gs := by
  induction gs with
  | nil => trivial
  | cons g gs ih =>
    obtain ⟨⟨a, t, rfl, hm, hh⟩, hgs⟩ := h
    have ha := hfl a (by simp)
    have hgt := threshold_gt ht ha.1 ha.2
    have hne := threshold_near ht ha.2
    refine ⟨⟨a, t, rfl, fun x hx => ⟨(hm x hx).1, (hm x hx).2.le.trans hne.2⟩, ?_⟩, ih (fun x hx => hfl x (by rw [List.flatten_cons]; exact List.mem_append_right _ hx)) hgs⟩
    intro g' hg'
    obtain ⟨b, t', rfl, hb⟩ := hh g' hg'
    exact ⟨b, t', rfl, hgt.trans_le hb, hne.1.trans hb⟩

/-- **C154** (`unique_distance`; full statement: for all positive tolerances, which is false by `unique_distance_unseen`).  For all distances of the format and tolerances above `2⁻⁵³`, the loop
terminates, the sorted distances are split into consecutive groups, the members of a group are within the tolerance of its smallest member and those of the following group are not, up to
a factor `1 ± 2⁻⁵⁰`; the results are the means and the sizes of the groups. -/
theorem unique_distance_rounded_partial (mean : List ℝ → ℝ) {tol : ℝ} (ht : 2 ^ (-53 : ℤ) < tol) (all : List ℝ) (hall : ∀ x ∈ all, IsFloat binary64 x ∧ 2 ^ (-1022 : ℤ) ≤ x) :
    ∃ dis wDis gs, UniqueDistanceFl binary64 mean tol all dis wDis ∧ gs.flatten.Perm all ∧ gs.flatten.Pairwise (· ≤ ·) ∧
      SplitWithin ((1 + tol) * (1 - 2 ^ (-50 : ℤ))) ((1 + tol) * (1 + 2 ^ (-50 : ℤ))) gs ∧ dis = gs.map mean ∧ wDis = gs.map List.length := by
  obtain ⟨d, hdef⟩ : ∃ d, d = all.insertionSort (· ≤ ·) := ⟨_, rfl⟩
  have hperm : d.Perm all := hdef ▸ List.perm_insertionSort _ _
  have hsort : d.Pairwise (· ≤ ·) := hdef ▸ List.pairwise_insertionSort _ _
  have hd : ∀ x ∈ d, IsFloat binary64 x ∧ 2 ^ (-1022 : ℤ) ≤ x := fun x hx => hall x (hperm.mem_iff.mp hx)
  by_cases hne : d = []
  · refine ⟨[], [], [], ⟨⟨0, 1, [], []⟩, hdef ▸ Loop.done (by simp [uCond, hne]), rfl, rfl⟩, ?_, by simp, trivial, rfl, rfl⟩
    rw [hne] at hperm
    simpa using hperm
  · obtain ⟨s, gs, h1, h2, h3, h4, h5⟩ := unique_loop_fl binary64 mean tol d hsort (fun x hx => threshold_gt ht (hd x hx).1 (hd x hx).2) d.length [] d le_rfl (by simp) hne 1 (by omega) [] []
    exact ⟨s.dis, s.wDis, gs, ⟨s, hdef ▸ h1, rfl, rfl⟩, h2 ▸ hperm, h2 ▸ hsort, h3.split ht gs (h2 ▸ hd), by simpa using h4, by simpa using h5⟩

/-- **C154** (`unique_distance`, small tolerances).  For all tolerances from zero to `2⁻⁵³` and all distances of the format, however different, a single distance is returned: the mean of all. -/
theorem unique_distance_unseen (mean : List ℝ → ℝ) {tol : ℝ} (h0 : 0 ≤ tol) (ht : tol ≤ 2 ^ (-53 : ℤ)) (all : List ℝ) (hne : all ≠ []) (hall : ∀ x ∈ all, IsFloat binary64 x)
    {dis : List ℝ} {wDis : List ℕ} : UniqueDistanceFl binary64 mean tol all dis wDis ↔ dis = [mean (all.insertionSort (· ≤ ·))] ∧ wDis = [all.length] := by
  obtain ⟨d, hdef⟩ : ∃ d, d = all.insertionSort (· ≤ ·) := ⟨_, rfl⟩
  have hperm : d.Perm all := hdef ▸ List.perm_insertionSort _ _
  rw [← hdef]
  have hdn : d ≠ [] := fun h => hne (by rw [h] at hperm; simpa using hperm)
  obtain ⟨a, R, rfl⟩ := List.exists_cons_of_ne_nil hdn
  have ha : IsFloat binary64 a := hall a (hperm.mem_iff.mp (by simp))
  have hthr : threshold binary64 tol a = a := by
    unfold threshold
    rw [one_add_unseen h0 ht, one_mul]; exact ha
  have hbody : uBodyFl binary64 mean tol (a :: R) ⟨0, 1, [], []⟩ = ⟨0, 0, [mean (a :: R)], [(a :: R).length]⟩ := by
    simp [uBodyFl, hthr, argmaxGe, List.findIdx?_cons]
  have hrun : Loop (uCond (a :: R)) (uBodyFl binary64 mean tol (a :: R)) ⟨0, 1, [], []⟩ ⟨0, 0, [mean (a :: R)], [(a :: R).length]⟩ :=
    Loop.step (by simp [uCond]) (by rw [hbody]; exact Loop.done (by simp [uCond]))
  constructor
  · rintro ⟨s, hs, rfl, rfl⟩
    rw [← hdef] at hs
    rw [hs.det hrun]
    exact ⟨rfl, congrArg (fun n => [n]) hperm.length_eq⟩
  · rintro ⟨rfl, rfl⟩
    refine ⟨⟨0, 0, [mean (a :: R)], [(a :: R).length]⟩, ?_, rfl, congrArg (fun n => [n]) hperm.length_eq⟩
    rw [← hdef]; exact hrun

/-- **C154** (similarities solver; full statement: for all positive tolerances, which is false by `find_distances_unseen`).  As `unique_distance_rounded_partial`, with the number of its group
for every pair. -/
theorem find_distances_rounded_partial (mean : List ℝ → ℝ) {tol : ℝ} (ht : 2 ^ (-53 : ℤ) < tol) (all : List ℝ) (hall : ∀ x ∈ all, IsFloat binary64 x ∧ 2 ^ (-1022 : ℤ) ≤ x)
    (isort : List ℕ) (hperm : isort.Perm (List.range all.length)) (hsort : (isort.map fun p : ℕ => all.getD p 0).Pairwise (· ≤ ·)) (init : ℕ → ℕ) :
    ∃ distances indices qs, FindDistancesFl binary64 mean tol all isort init distances indices ∧ qs.flatten.Perm (List.range all.length) ∧
      SplitWithin ((1 + tol) * (1 - 2 ^ (-50 : ℤ))) ((1 + tol) * (1 + 2 ^ (-50 : ℤ))) (qs.map (List.map fun p : ℕ => all.getD p 0)) ∧
      distances = qs.map (fun q => mean (q.map fun p : ℕ => all.getD p 0)) ∧ Labelled indices 0 qs := by
  have hd : ∀ x ∈ isort.map (fun p : ℕ => all.getD p 0), IsFloat binary64 x ∧ 2 ^ (-1022 : ℤ) ≤ x := by
    intro x hx
    rw [List.mem_map] at hx
    obtain ⟨p, hp, rfl⟩ := hx
    have hlt : p < all.length := List.mem_range.mp (hperm.mem_iff.mp hp)
    rw [List.getD_eq_getElem _ _ hlt]
    exact hall _ (List.getElem_mem hlt)
  by_cases hne : isort = []
  · subst hne
    exact ⟨[], init, [], ⟨⟨0, 1, 0, [], init⟩, Loop.done (by simp [sCond]), rfl, rfl⟩, by simpa using hperm, trivial, rfl, trivial⟩
  · obtain ⟨s, qs, h1, h2, h3, h4, h5, -⟩ := find_loop_fl binary64 mean tol (fun p : ℕ => all.getD p 0) isort (hperm.nodup_iff.mpr List.nodup_range) _ rfl hsort
      (fun x hx => threshold_gt ht (hd x hx).1 (hd x hx).2) isort.length [] isort le_rfl (by simp) hne 1 (by omega) 0 [] init
    refine ⟨s.distances, s.indices, qs, ⟨s, h1, rfl, rfl⟩, h2 ▸ hperm, h3.split ht _ ?_, by simpa using h4, h5⟩
    rw [← List.map_flatten, h2]
    exact hd

/-- **C154** (similarities solver, small tolerances).  All pairs get the same distance. -/
theorem find_distances_unseen (mean : List ℝ → ℝ) {tol : ℝ} (h0 : 0 ≤ tol) (ht : tol ≤ 2 ^ (-53 : ℤ)) (all : List ℝ) (hne : all ≠ []) (hall : ∀ x ∈ all, IsFloat binary64 x)
    (isort : List ℕ) (hperm : isort.Perm (List.range all.length)) (init : ℕ → ℕ) {distances : List ℝ} {indices : ℕ → ℕ} (h : FindDistancesFl binary64 mean tol all isort init distances indices) :
    distances = [mean (isort.map fun p : ℕ => all.getD p 0)] ∧ ∀ p < all.length, indices p = 0 := by
  obtain ⟨a, R, rfl⟩ : ∃ a R, isort = a :: R := by
    refine List.exists_cons_of_ne_nil fun hc => hne ?_
    rw [hc] at hperm
    have := hperm.length_eq
    rw [List.length_range] at this
    exact List.length_eq_zero_iff.mp this.symm
  have hlt : a < all.length := List.mem_range.mp (hperm.mem_iff.mp (by simp))
  have ha : IsFloat binary64 (all.getD a 0) := by
    rw [List.getD_eq_getElem _ _ hlt]; exact hall _ (List.getElem_mem hlt)
  have hthr : threshold binary64 tol (all.getD a 0) = all.getD a 0 := by
    unfold threshold
    rw [one_add_unseen h0 ht, one_mul]; exact ha
  obtain ⟨s, hs, rfl, rfl⟩ := h
  rw [List.map_cons] at hs ⊢
  generalize all.getD a 0 = v at hthr hs
  have hbody : sBodyFl binary64 mean tol (v :: R.map fun p : ℕ => all.getD p 0) (a :: R) ⟨0, 1, 0, [], init⟩
      = ⟨0, 0, 1, [mean (v :: R.map fun p : ℕ => all.getD p 0)], assign init (a :: R) 0⟩ := by
    simp [sBodyFl, hthr, argmaxGe, List.findIdx?_cons]
  have hrun : Loop (sCond (v :: R.map fun p : ℕ => all.getD p 0)) (sBodyFl binary64 mean tol (v :: R.map fun p : ℕ => all.getD p 0) (a :: R)) ⟨0, 1, 0, [], init⟩
      ⟨0, 0, 1, [mean (v :: R.map fun p : ℕ => all.getD p 0)], assign init (a :: R) 0⟩ :=
    Loop.step (by simp [sCond]) (by rw [hbody]; exact Loop.done (by simp [sCond]))
  rw [hs.det hrun]
  refine ⟨rfl, fun p hp => ?_⟩
  simp only [assign]
  rw [if_pos (hperm.mem_iff.mpr (List.mem_range.mpr hp))]

/-- Without rounding and with the exact mean, the loops are those of C19. -/
example (tol : ℝ) : uBodyFl id npMean tol = uBody tol ∧ sBodyFl id npMean tol = sBody tol := ⟨rfl, rfl⟩

/-- Numbers of the format: small integers. -/
theorem isFloat_nat (n : ℕ) (h : n ≤ 2 ^ 53) : IsFloat binary64 n := by
  have := binary64_exact n 0 (by rw [abs_of_nonneg (by positivity)]; exact_mod_cast h) (by norm_num)
  simpa [IsFloat] using this

/-- Non-vacuity: distances of 1 m and 100 m.  With the tolerance `2⁻⁵²` they stay apart (two groups); with the tolerance `2⁻⁵³` both are replaced by 50.5 m. -/
example : (∃ dis w, UniqueDistanceFl binary64 npMean (2 ^ (-53 : ℤ)) [1, 100] dis w ∧ dis = [101 / 2]) ∧
    (∃ dis w, UniqueDistanceFl binary64 npMean (2 ^ (-52 : ℤ)) [1, 100] dis w ∧ ∀ x ∈ dis, x ≠ 101 / 2) := by
  have f1 : IsFloat binary64 1 := by simpa using isFloat_nat 1 (by norm_num)
  have f2 : IsFloat binary64 100 := by simpa using isFloat_nat 100 (by norm_num)
  have hs : ([1, 100] : List ℝ).insertionSort (· ≤ ·) = [1, 100] := by simp [List.insertionSort]
  constructor
  · refine ⟨_, _, (unique_distance_unseen npMean (by positivity) le_rfl [1, 100] (by simp) ?_).mpr ⟨rfl, rfl⟩, ?_⟩
    · intro x hx
      simp only [List.mem_cons, List.not_mem_nil, or_false] at hx
      rcases hx with rfl | rfl
      · exact f1
      · exact f2
    · rw [hs]; norm_num [npMean]
  · have hall : ∀ x ∈ ([1, 100] : List ℝ), IsFloat binary64 x ∧ 2 ^ (-1022 : ℤ) ≤ x := by
      intro x hx
      have h1 : (2 : ℝ) ^ (-1022 : ℤ) ≤ 1 := zpow_le_one_of_nonpos₀ (by norm_num) (by norm_num)
      simp only [List.mem_cons, List.not_mem_nil, or_false] at hx
      rcases hx with rfl | rfl
      · exact ⟨f1, h1⟩
      · exact ⟨f2, by linarith⟩
    obtain ⟨dis, w, gs, hrun, hperm, -, hgs, hdis, -⟩ := unique_distance_rounded_partial npMean (tol := 2 ^ (-52 : ℤ)) (zpow_lt_zpow_right₀ (by norm_num) (by norm_num)) [1, 100] hall
    refine ⟨dis, w, hrun, ?_⟩
    rw [hdis]
    intro x hx
    rw [List.mem_map] at hx
    obtain ⟨g, hg, rfl⟩ := hx
    have hbound : ∀ (gs : List (List ℝ)), SplitWithin ((1 + 2 ^ (-52 : ℤ)) * (1 - 2 ^ (-50 : ℤ))) ((1 + 2 ^ (-52 : ℤ)) * (1 + 2 ^ (-50 : ℤ))) gs → ∀ g ∈ gs, ∃ a t, g = a :: t ∧
        ∀ x ∈ t, a ≤ x ∧ x ≤ (1 + 2 ^ (-52 : ℤ)) * (1 + 2 ^ (-50 : ℤ)) * a := by
      intro gs
      induction gs with
      | nil => intro _ g hg; simp at hg
      | cons g' gs ih =>
        rintro ⟨⟨a, t, rfl, hm, -⟩, hr⟩ g hg
        rcases List.mem_cons.mp hg with rfl | hg
        · exact ⟨a, t, rfl, hm⟩
        · exact ih hr g hg
    obtain ⟨a, t, rfl, hm⟩ := hbound gs hgs g hg
    have hmem : ∀ x ∈ a :: t, x = 1 ∨ x = 100 := fun x hx => by
      have := hperm.mem_iff.mp (List.mem_flatten.mpr ⟨_, hg, hx⟩)
      simpa using this
    have hsame : ∀ x ∈ t, x = a := by
      intro x hx
      have h1 := hm x hx
      rcases hmem x (by simp [hx]) with rfl | rfl <;> rcases hmem a (by simp) with rfl | rfl
      · rfl
      · exfalso; norm_num at h1
      · exfalso; norm_num at h1
      · rfl
    have hsum : npMean (a :: t) = a := by
      have : t = List.replicate t.length a := List.eq_replicate_iff.mpr ⟨rfl, hsame⟩
      unfold npMean
      rw [this]
      simp only [List.sum_cons, List.sum_replicate, nsmul_eq_mul, List.length_cons, List.length_replicate, Nat.cast_add, Nat.cast_one]
      have : (t.length : ℝ) + 1 ≠ 0 := by positivity
      field_simp
      ring
    rw [hsum]
    rcases hmem a (by simp) with rfl | rfl <;> norm_num

end Verif.Bore
