import Verif.Sol.HistLemmas

/-!
# Load history reconstruction (C29) and temporal superposition (C78)
-/

noncomputable section

namespace Verif.Sol

open Bore

/-- **C29**.  For increasing times, the reconstruction succeeds and each reconstructed load is the mean of the load history over an interval of the grid of times
measured backwards from the last time. -/
theorem reconstruct_mean (t0 : ℝ) (ts Q : List ℝ) (h : Increasing 0 (t0 :: ts)) (hl : Q.length = (t0 :: ts).length) :
    reconstruct (t0 :: ts) Q = some (slopes (heat (t0 :: ts) Q) (backward (ts.getLastD t0) (0 :: t0 :: ts))) := by
  obtain ⟨T, hT⟩ : ∃ T, T = ts.getLastD t0 := ⟨_, rfl⟩
  have hT' : (t0 :: ts).getLastD 0 = T := by rw [List.getLastD_cons, hT]
  have hle := h.le
  rw [hT'] at hle
  have ht0 : 0 < t0 := h.1
  have h' : Increasing 0 ((t0 :: ts) ++ [T + t0]) := h.append (by rw [hT']; linarith)
  have hb := backward_eq 0 (t0 :: ts)
  rw [hT', ← diffs_eq] at hb
  -- the points of interpolation
  have hz : (Q ++ [0]).length = ((t0 :: ts) ++ [T + t0]).length := by simp [hl]
  have hpts : List.zip (0 :: ((t0 :: ts) ++ [T + t0])) ((0 :: cumsumFrom 0 (List.zipWith (· * ·) Q (diffs (t0 :: ts))))
      ++ [(0 :: cumsumFrom 0 (List.zipWith (· * ·) Q (diffs (t0 :: ts)))).getLastD 0]) = (0, 0) :: knots 0 0 (List.zip ((t0 :: ts) ++ [T + t0]) (Q ++ [0])) := by
    rw [← zip_knots 0 0 _ _ hz]
    show (0, 0) :: List.zip ((t0 :: ts) ++ [T + t0]) (cumsumFrom 0 (List.zipWith (· * ·) Q (diffs (t0 :: ts))) ++ [_]) = _
    have hd : diffsFrom 0 ((t0 :: ts) ++ [T + t0]) = diffs (t0 :: ts) ++ [t0] := by
      rw [diffs_eq]
      have : ∀ (a : ℝ) (l : List ℝ) (b : ℝ), diffsFrom a (l ++ [b]) = diffsFrom a l ++ [b - l.getLastD a] := by
        intro a l b
        induction l generalizing a with
        | nil => simp [diffsFrom]
        | cons t l ih => simp only [List.cons_append, diffsFrom, ih, List.getLastD_cons]
      rw [this, hT']
      congr 2; ring
    have hlen : Q.length = (diffs (t0 :: ts)).length := by rw [diffs_eq, diffsFrom_length, hl]
    rw [hd, List.zipWith_append hlen, List.zipWith_cons_cons, List.zipWith_nil_left, cumsum_snoc, zero_mul, add_zero]
    congr 4
    rw [List.getLastD_cons, zero_add]
    have : ∀ (c : ℝ) (l : List ℝ), (cumsumFrom c l).getLastD c = c + l.sum := by
      intro c l
      induction l generalizing c with
      | nil => simp [cumsumFrom]
      | cons v l ih => rw [cumsumFrom, List.getLastD_cons, ih, List.sum_cons, add_assoc]
    rw [this, zero_add]
  -- the interpolated values
  have hsf : ∀ x, 0 ≤ x → x ≤ T → interp ((0, 0) :: knots 0 0 (List.zip ((t0 :: ts) ++ [T + t0]) (Q ++ [0]))) x = some (heat (t0 :: ts) Q x) := by
    intro x hx hx'
    have hfst : (List.zip ((t0 :: ts) ++ [T + t0]) (Q ++ [0])).map Prod.fst = (t0 :: ts) ++ [T + t0] := List.map_fst_zip (by omega)
    have hlast : ∀ (a F : ℝ) (l : List (ℝ × ℝ)), ((knots a F l).getLastD (a, F)).1 = (l.map Prod.fst).getLastD a := by
      intro a F l
      induction l generalizing a F with
      | nil => rfl
      | cons p l ih => obtain ⟨t, q⟩ := p; rw [knots, List.getLastD_cons, ih, List.map_cons, List.getLastD_cons]
    have hend : ((List.zip ((t0 :: ts) ++ [T + t0]) (Q ++ [0])).map Prod.fst).getLastD 0 = T + t0 := by rw [hfst, List.getLastD_eq_getLast?, List.getLast?_append]; rfl
    unfold interp
    dsimp only
    rw [if_pos ⟨hx, by rw [hlast, hend]; linarith⟩]
    match Q, hl with
    | q :: Q, hl =>
      have hzc : List.zip ((t0 :: ts) ++ [T + t0]) ((q :: Q) ++ [0]) = (t0, q) :: List.zip (ts ++ [T + t0]) (Q ++ [0]) := rfl
      have hh := interpGo_heat (a := 0) 0 (t0, q) (List.zip (ts ++ [T + t0]) (Q ++ [0])) (by rw [← hzc, hfst]; exact h') hx
        (by rw [hzc, List.map_cons, List.getLastD_cons] at hend; rw [hend]; linarith)
      rw [hzc, hh, zero_add, ← hzc, List.zip_append hl.symm]
      exact congrArg some (heatFrom_append_zero 0 _ _ _)
  -- the reversed grid
  have hmem : ∀ x ∈ backward T (0 :: t0 :: ts), 0 ≤ x ∧ x ≤ T := by
    intro x hx
    obtain ⟨t, ht, rfl⟩ := List.mem_map.mp hx
    have := hle t (List.mem_reverse.mp ht)
    constructor <;> linarith
  unfold reconstruct
  dsimp only
  rw [if_neg (by simp [hl])]
  rw [← hT, hpts, hb, mapM_some _ (heat (t0 :: ts) Q) _ fun x hx => hsf x (hmem x (List.mem_of_mem_tail hx)).1 (hmem x (List.mem_of_mem_tail hx)).2,
    mapM_some _ (heat (t0 :: ts) Q) _ fun x hx => hsf x (hmem x (List.dropLast_subset _ hx)).1 (hmem x (List.dropLast_subset _ hx)).2]
  dsimp only
  rw [← hb, slopes_cumsum]

/-- The reversed grid increases from zero to the last time. -/
theorem backward_increasing (t0 : ℝ) (ts : List ℝ) (h : Increasing 0 (t0 :: ts)) :
    ∃ l, backward (ts.getLastD t0) (0 :: t0 :: ts) = 0 :: l ∧ Increasing 0 l ∧ l.getLastD 0 = ts.getLastD t0 ∧ l.length = (t0 :: ts).length := by
  have hb := backward_eq 0 (t0 :: ts)
  rw [List.getLastD_cons] at hb
  refine ⟨_, hb.symm, cumsum_increasing 0 _ fun v hv => diffsFrom_pos h v (List.mem_reverse.mp hv), ?_, ?_⟩
  · have : ∀ (c : ℝ) (l : List ℝ), (cumsumFrom c l).getLastD c = c + l.sum := by
      intro c l
      induction l generalizing c with
      | nil => simp [cumsumFrom]
      | cons v l ih => rw [cumsumFrom, List.getLastD_cons, ih, List.sum_cons, add_assoc]
    rw [this, List.sum_reverse, diffsFrom_sum, List.getLastD_cons]; ring
  · have := congrArg List.length hb
    simpa [backward] using this

/-- **C29** (heat).  The reconstructed loads, on the reversed grid, extract as much heat as the loads on the original grid. -/
theorem reconstruct_heat (t0 : ℝ) (ts Q : List ℝ) (h : Increasing 0 (t0 :: ts)) (hl : Q.length = (t0 :: ts).length) :
    ∃ R, reconstruct (t0 :: ts) Q = some R ∧ R.length = Q.length ∧
      totalHeat (backward (ts.getLastD t0) (0 :: t0 :: ts)) R = totalHeat (0 :: t0 :: ts) Q := by
  refine ⟨_, reconstruct_mean t0 ts Q h hl, ?_⟩
  obtain ⟨l, hb, hi, hlast, hlen⟩ := backward_increasing t0 ts h
  rw [hb]
  refine ⟨by rw [slopes_length, hlen, hl], ?_⟩
  rw [totalHeat_slopes _ _ _ hi, hlast, heat, heat, heat_end 0 (t0 :: ts) Q hl h (by rw [List.getLastD_cons]),
    heatFrom_zero _ (by rw [List.map_fst_zip (by omega)]; exact h) le_rfl, sub_zero]

/-- **C29** (constant load). -/
theorem reconstruct_const (c t0 : ℝ) (ts : List ℝ) (h : Increasing 0 (t0 :: ts)) :
    reconstruct (t0 :: ts) (List.replicate (t0 :: ts).length c) = some (List.replicate (t0 :: ts).length c) := by
  rw [reconstruct_mean t0 ts _ h (by simp)]
  obtain ⟨l, hb, hi, hlast, hlen⟩ := backward_increasing t0 ts h
  rw [hb, slopes_linear (c := c) 0 l hi, hlen]
  intro x hx
  have := hi.le x hx
  rw [hlast] at this
  rw [heat, heat_const c 0 _ h this.1 (by rw [List.getLastD_cons]; exact this.2), sub_zero]

/-- **C29** (symmetric grid).  When the grid is the same in both directions of time, the history is reconstructed as it was. -/
theorem reconstruct_symmetric (t0 : ℝ) (ts Q : List ℝ) (h : Increasing 0 (t0 :: ts)) (hl : Q.length = (t0 :: ts).length)
    (hs : backward (ts.getLastD t0) (0 :: t0 :: ts) = 0 :: t0 :: ts) : reconstruct (t0 :: ts) Q = some Q := by
  rw [reconstruct_mean t0 ts Q h hl, hs, slopes_heat 0 _ 0 _ Q hl h fun x _ => by rw [zero_add, heat]]

/-- Times `a + d`, `a + 2 d`, ..., `a + n d`. -/
def uniform (d : ℝ) : ℝ → ℕ → List ℝ
  | _, 0 => []
  | a, n + 1 => (a + d) :: uniform d (a + d) n

theorem uniform_increasing {d : ℝ} (hd : 0 < d) (a : ℝ) (n : ℕ) : Increasing a (uniform d a n) := by
  induction n generalizing a with
  | zero => trivial
  | succ n ih => exact ⟨by linarith, ih _⟩

theorem uniform_diffs (d a : ℝ) (n : ℕ) : diffsFrom a (uniform d a n) = List.replicate n d := by
  induction n generalizing a with
  | zero => rfl
  | succ n ih => rw [uniform, diffsFrom, ih, List.replicate_succ, add_sub_cancel_left]

theorem cumsum_replicate (d a : ℝ) (n : ℕ) : cumsumFrom a (List.replicate n d) = uniform d a n := by
  induction n generalizing a with
  | zero => rfl
  | succ n ih => rw [List.replicate_succ, cumsumFrom, ih, uniform]

theorem uniform_backward (d : ℝ) (n : ℕ) : backward ((uniform d d n).getLastD d) (0 :: d :: uniform d d n) = 0 :: d :: uniform d d n := by
  have e : d :: uniform d d n = uniform d 0 (n + 1) := by rw [uniform, zero_add]
  have := backward_eq 0 (uniform d 0 (n + 1))
  rw [uniform_diffs, List.reverse_replicate, cumsum_replicate, ← e, List.getLastD_cons] at this
  exact this.symm

/-- **C29** (uniform grid).  On a uniform grid the history is reconstructed as it was. -/
theorem reconstruct_uniform {d : ℝ} (hd : 0 < d) (n : ℕ) (Q : List ℝ) (hl : Q.length = n + 1) : reconstruct (d :: uniform d d n) Q = some Q := by
  have hi : Increasing 0 (d :: uniform d d n) := ⟨hd, uniform_increasing hd d n⟩
  have hlen : ∀ (a : ℝ) (n : ℕ), (uniform d a n).length = n := fun a n => by
    induction n generalizing a with
    | zero => rfl
    | succ n ih => simp [uniform, ih]
  exact reconstruct_symmetric d _ Q hi (by simp [hl, hlen]) (uniform_backward d n)

/-! ### Temporal superposition -/

theorem zip_reverse (a b : List ℝ) (h : a.length = b.length) : (List.zipWith (· * ·) a b.reverse).sum = (List.zipWith (· * ·) a.reverse b).sum := by
  rw [← List.reverse_reverse a, ← List.reverse_zipWith (by simp [h]), List.sum_reverse, List.reverse_reverse]

theorem duhamel_eq (H : ℝ → ℝ) (T prev : ℝ) (l Q : List ℝ) :
    (List.zipWith (· * ·) (l.map H) (diffsFrom prev Q)).sum = duhamel H T prev (l.map fun t => T - t) Q := by
  induction l generalizing prev Q with
  | nil => cases Q <;> simp [duhamel]
  | cons t l ih =>
    cases Q with
    | nil => simp [diffsFrom, duhamel]
    | cons q Q => simp only [diffsFrom, List.map_cons, List.zipWith_cons_cons, List.sum_cons, duhamel, ih, sub_sub_cancel]; ring

/-- **C78**.  When the response factors are the values of response functions `H i j` at the times of the grid (and possibly later), the superposition of the
reconstructed loads is Duhamel's sum: each change of load acts for the time from its start, on the reversed grid, to the last time. -/
theorem superpose_duhamel {n : ℕ} (H : Fin n → Fin n → ℝ → ℝ) (t0 : ℝ) (ts later : List ℝ) (R : Fin n → List ℝ) (hR : ∀ j, (R j).length = (t0 :: ts).length) (i : Fin n) :
    superpose (fun i j => ((t0 :: ts) ++ later).map (H i j)) R i =
      some (∑ j, duhamel (H i j) (ts.getLastD t0) 0 (backward (ts.getLastD t0) (0 :: t0 :: ts)) (R j)) := by
  unfold superpose
  rw [if_pos fun j => by simp [hR j]]
  congr 1
  refine Finset.sum_congr rfl fun j _ => ?_
  have e1 : (((t0 :: ts) ++ later).map (H i j)).take (R j).length = (t0 :: ts).map (H i j) := by
    rw [hR j, ← List.map_take, List.take_left]
  have e2 : ((t0 :: ts).map (H i j)).length = (diffs (R j)).length := by rw [diffs_eq, diffsFrom_length, hR j, List.length_map]
  have e3 : ∀ (prev : ℝ) (a b Q : List ℝ), Q.length = a.length → duhamel (H i j) (ts.getLastD t0) prev (a ++ b) Q = duhamel (H i j) (ts.getLastD t0) prev a Q := by
    intro prev a b Q hq
    induction a generalizing prev Q with
    | nil => rw [List.length_eq_zero_iff.mp hq]; cases b <;> simp [duhamel]
    | cons s a ih =>
      match Q, hq with
      | q :: Q, hq => simp only [List.cons_append, duhamel]; rw [ih q Q (by simpa using hq)]
  have e4 : backward (ts.getLastD t0) (0 :: t0 :: ts) = (t0 :: ts).reverse.map (fun t => ts.getLastD t0 - t) ++ [ts.getLastD t0 - 0] := by
    rw [backward, List.reverse_cons, List.map_append]; rfl
  rw [e1, zip_reverse _ _ e2, diffs_eq, ← List.map_reverse, duhamel_eq _ (ts.getLastD t0), e4, e3 _ _ _ _ (by simp [hR j])]

/-- On a uniform grid, reconstruction and superposition together give Duhamel's sum of the loads themselves. -/
theorem superpose_uniform {n : ℕ} (H : Fin n → Fin n → ℝ → ℝ) {d : ℝ} (hd : 0 < d) (m : ℕ) (later : List ℝ) (Q : Fin n → List ℝ) (hQ : ∀ j, (Q j).length = m + 1) (i : Fin n) :
    ∃ R : Fin n → List ℝ, (∀ j, reconstruct (d :: uniform d d m) (Q j) = some (R j)) ∧
      superpose (fun i j => ((d :: uniform d d m) ++ later).map (H i j)) R i = some (∑ j, duhamel (H i j) ((uniform d d m).getLastD d) 0 (0 :: d :: uniform d d m) (Q j)) := by
  refine ⟨Q, fun j => reconstruct_uniform hd m (Q j) (hQ j), ?_⟩
  have hlen : ∀ (a : ℝ) (n : ℕ), (uniform d a n).length = n := fun a n => by
    induction n generalizing a with
    | zero => rfl
    | succ n ih => simp [uniform, ih]
  rw [superpose_duhamel H d _ later Q (fun j => by simp [hQ j, hlen]) i, uniform_backward]

/-! ### Cases -/

/-- Times 1, 3, 4 and loads 5, 2, 7: the loads on the reversed grid 0, 1, 3, 4 are again 5, 2, 7; with the times 1, 3, 7 (reversed 0, 4, 6, 7) they are 4, 7, 7. -/
example : reconstruct [1, 3, 7] [5, 2, 7] = some [4, 7, 7] := by
  rw [reconstruct_mean 1 [3, 7] [5, 2, 7] (by norm_num [Increasing]) rfl]
  norm_num [slopes, backward, heat, heatFrom, List.zip]

example : ∃ R, reconstruct [1, 3, 7] [5, 2, 7] = some R ∧ R.length = 3 ∧ totalHeat [0, 4, 6, 7] R = totalHeat [0, 1, 3, 7] [5, 2, 7] := by
  obtain ⟨R, h1, h2, h3⟩ := reconstruct_heat 1 [3, 7] [5, 2, 7] (by norm_num [Increasing]) rfl
  refine ⟨R, h1, h2, ?_⟩
  rw [← h3]
  norm_num [backward]

example : reconstruct [1, 3, 7] [2, 2, 2] = some [2, 2, 2] := reconstruct_const 2 1 [3, 7] (by norm_num [Increasing])
example : reconstruct [3600, 7200] [5, 2] = some [5, 2] := by
  have := reconstruct_uniform (d := 3600) (by norm_num) 1 [5, 2] rfl
  norm_num [uniform] at this
  exact this

/-- Superposition for one source with the response `H`, grid 1, 3, 7, loads 4, 7, 7. -/
example (H : ℝ → ℝ) : superpose (n := 1) (fun _ _ => [H 1, H 3, H 7]) (fun _ => [4, 7, 7]) 0 = some (4 * H 7 + 3 * H 3) := by
  have := superpose_duhamel (n := 1) (fun _ _ => H) 1 [3, 7] [] (fun _ => [4, 7, 7]) (fun _ => rfl) 0
  simp only [List.append_nil, List.map_cons, List.map_nil] at this
  rw [this]
  norm_num [duhamel, backward]

end Verif.Sol
