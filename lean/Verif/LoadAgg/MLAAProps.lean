import Verif.LoadAgg.MLAALemmas

/-!
# Properties C04, C05: multiple load aggregation (MLAA)
-/

namespace Verif.LoadAgg.MLAA

open Finset

variable {K : Type*} [Field K] {S : Type*}

/-- The calls succeed exactly as long as no more time steps are taken than were
allocated for `tmax` (with `N0 = 2`, or one time step allocated, the code fails one call later: see
`nextTimeStep`). -/
theorem mlaa_run_isSome_iff (P : Params) (h0 : 1 ≤ P.N0) (ops : List (Op K S)) (hp : Proper ops) :
    (run P ops).isSome ↔ (hist ops).length ≤ P.Nt := by
  induction ops using List.reverseRecOn with
  | nil => simp [run, hist]
  | append_singleton ops op ih =>
    obtain ⟨hp', hop⟩ := proper_append hp
    rw [run_append, hist_append]
    cases hro : run P ops with
    | none =>
      rw [hro] at ih
      have := ih hp'
      simp only [Option.isSome_none, Bool.false_eq_true, false_iff, not_le, Option.bind_none] at this ⊢
      cases op with
      | next => simp [histStep]; omega
      | set l => simp [histStep]; omega
    | some τ =>
      rw [hro] at ih
      have h1 := (ih hp').mp rfl
      have hi := inv_run P h0 ops hp' τ hro
      cases op with
      | next =>
        simp only [Option.bind_some, step, nextTimeStep, histStep, List.length_cons]
        rw [hi.nt]
        split_ifs with hc <;> simp <;> omega
      | set l =>
        have hne : hist ops ≠ [] := by
          intro h
          rw [hist_eq_nil_iff] at h
          exact absurd (hop h) (by simp)
        have hpos : 0 < (hist ops).length := List.length_pos_iff.mpr hne
        simp only [Option.bind_some, step, Option.isSome_some, histStep, List.length_cons,
          List.length_tail, true_iff]
        omega

/-- Block sizes after `n` time steps, latest block first: `N0` single steps, then blocks of
`N1`, `N2`, `N3` steps once they are full, then the remainder. -/
def blockSizes (P : Params) (n : ℕ) : List ℕ :=
  let a0 := min n P.N0
  let a1 := if P.N0 + P.N1 ≤ n then P.N1 else 0
  let a2 := if P.N0 + P.N1 + P.N2 ≤ n then P.N2 else 0
  let a3 := if P.N0 + P.N1 + P.N2 + P.N3 ≤ n then P.N3 else 0
  List.replicate a0 1 ++ [a1, a2, a3, n - (a0 + a1 + a2 + a3)]

/-- The blocks cover all time steps: sizes sum to the number of steps. -/
theorem blockSizes_sum (P : Params) (n : ℕ) : (blockSizes P n).sum = n := by
  simp only [blockSizes, List.sum_append, List.sum_replicate, List.sum_cons, List.sum_nil,
    smul_eq_mul, mul_one, add_zero]
  split_ifs <;> omega

/-- **C04**.  After every proper sequence of calls: the stored block sizes are the sizes of
consecutive windows that cover the history exactly once; the stored single loads are the
latest loads; every stored block value is the mean of the loads of its own window.
(The hypotheses on `N1..N3` are not used by the proof; they exclude the empty windows whose
mean is NaN in the code.) -/
theorem mlaa_partition (P : Params) (h0 : 1 ≤ P.N0) (_h1 : 1 ≤ P.N1) (_h2 : 1 ≤ P.N2)
    (_h3 : 1 ≤ P.N3) (ops : List (Op K S)) (hp : Proper ops) (σ : State K S)
    (hr : run P ops = some σ) :
    List.replicate σ.n0 1 ++ [σ.n1, σ.n2, σ.n3, σ.n4] = blockSizes P (hist ops).length ∧
    σ.n0 + σ.n1 + σ.n2 + σ.n3 + σ.n4 = (hist ops).length ∧
    (∀ k < σ.n0, σ.Q0 (P.N0 - 1 - k) = (hist ops).getD k 0) ∧
    ∀ s, let H := (hist ops).map fun l => l s
      (0 < σ.n1 → σ.Q1 s = mean ((H.drop σ.n0).take σ.n1)) ∧
      (0 < σ.n2 → σ.Q2 s = mean ((H.drop (σ.n0 + σ.n1)).take σ.n2)) ∧
      (0 < σ.n3 → σ.Q3 s = mean ((H.drop (σ.n0 + σ.n1 + σ.n2)).take σ.n3)) ∧
      (0 < σ.n4 → σ.Q4 s = mean ((H.drop (σ.n0 + σ.n1 + σ.n2 + σ.n3)).take σ.n4)) := by
  have hi := inv_run P h0 ops hp σ hr
  have hn0 := hi.n0
  have hn1 := hi.n1
  have hn2 := hi.n2
  have hn3 := hi.n3
  have hn4 := hi.n4
  have hsum : σ.n0 + σ.n1 + σ.n2 + σ.n3 + σ.n4 = (hist ops).length := by
    rw [hn4, hn0, hn1, hn2, hn3]; split_ifs <;> omega
  refine ⟨?_, hsum, hi.Q0, ?_⟩
  · simp only [blockSizes]
    rw [hn4, hn0, hn1, hn2, hn3]
  · intro s
    refine ⟨fun hc => ?_, fun hc => ?_, fun hc => ?_, fun hc => ?_⟩
    · rw [← windowMean_eq P _ σ hi σ.n0 σ.n1 (by omega)]
      rw [hi.Q1 (by by_contra hcon; rw [if_neg hcon] at hn1; omega)]
    · rw [← windowMean_eq P _ σ hi (σ.n0 + σ.n1) σ.n2 (by omega)]
      rw [hi.Q2 (by by_contra hcon; rw [if_neg hcon] at hn2; omega)]
    · rw [← windowMean_eq P _ σ hi (σ.n0 + σ.n1 + σ.n2) σ.n3 (by omega)]
      rw [hi.Q3 (by by_contra hcon; rw [if_neg hcon] at hn3; omega)]
    · rw [← windowMean_eq P _ σ hi (σ.n0 + σ.n1 + σ.n2 + σ.n3) σ.n4 (by omega)]
      rw [hi.Q4 hc, show (hist ops).length - (σ.n0 + σ.n1 + σ.n2 + σ.n3 + σ.n4) = 0 by omega,
        show (hist ops).length - (σ.n0 + σ.n1 + σ.n2 + σ.n3) = σ.n4 by omega]

theorem mul_mean [CharZero K] (n : ℕ) (L : List K) (hL : L.length = n) :
    (n : K) * mean L = L.sum := by
  subst hL
  rcases Nat.eq_zero_or_pos L.length with h | h
  · rw [List.length_eq_zero_iff] at h; subst h; simp
  · have : (L.length : K) ≠ 0 := by exact_mod_cast h.ne'
    rw [mean, mul_div_cancel₀ _ this]

/-- **C04** (heat).  The heat represented by the blocks is the heat of the history. -/
theorem mlaa_heat_preserved [CharZero K] (P : Params) (h0 : 1 ≤ P.N0) (h1 : 1 ≤ P.N1)
    (h2 : 1 ≤ P.N2) (h3 : 1 ≤ P.N3) (ops : List (Op K S)) (hp : Proper ops) (σ : State K S)
    (hr : run P ops = some σ) (s : S) :
    (∑ k ∈ range σ.n0, σ.Q0 (P.N0 - 1 - k) s) + σ.n1 * σ.Q1 s + σ.n2 * σ.Q2 s + σ.n3 * σ.Q3 s
      + σ.n4 * σ.Q4 s = ((hist ops).map fun l => l s).sum := by
  obtain ⟨-, hsum, hq0, hq⟩ := mlaa_partition P h0 h1 h2 h3 ops hp σ hr
  obtain ⟨q1, q2, q3, q4⟩ := hq s
  have key : ∀ (n a : ℕ) (Q : K), a + n ≤ (hist ops).length →
      (0 < n → Q = mean ((((hist ops).map fun l => l s).drop a).take n)) →
      (n : K) * Q = ((((hist ops).map fun l => l s).drop a).take n).sum := by
    intro n a Q ha hQ
    rcases Nat.eq_zero_or_pos n with rfl | hn
    · simp
    · rw [hQ hn, mul_mean _ _ (by simp; omega)]
  rw [key _ _ _ (by omega) q1, key _ _ _ (by omega) q2, key _ _ _ (by omega) q3,
    key _ _ _ (by omega) q4]
  have hh : ∑ k ∈ range σ.n0, σ.Q0 (P.N0 - 1 - k) s
      = (((hist ops).map fun l => l s).take σ.n0).sum := by
    have hs : ∀ (L : List (S → K)) (n : ℕ), n ≤ L.length →
        ∑ k ∈ range n, L.getD k 0 s = ((L.map fun l => l s).take n).sum := by
      intro L n hn
      induction L generalizing n with
      | nil => simp at hn; subst hn; simp
      | cons v t ih =>
        cases n with
        | zero => simp
        | succ n =>
          rw [Finset.sum_range_succ']
          simp only [List.length_cons, Nat.add_le_add_iff_right] at hn
          simp only [List.getD_cons_succ, List.getD_cons_zero, List.map_cons, List.take_succ_cons,
            List.sum_cons]
          rw [ih n hn, add_comm]
    rw [← hs _ _ (by omega)]
    exact Finset.sum_congr rfl fun k hk => by rw [hq0 k (Finset.mem_range.mp hk)]
  rw [hh]
  have sp : ∀ (L : List K) (a n : ℕ), (L.take (a + n)).sum = (L.take a).sum + ((L.drop a).take n).sum := by
    intro L a n
    rw [List.take_add, List.sum_append]
  rw [← sp, ← sp, ← sp, ← sp, hsum, List.take_of_length_le (by simp)]

/-- **C05**.  The response returned after every proper sequence of calls is the exact
temporal superposition of the history in which every load is replaced by the mean of its
block, summed over the sources. -/
theorem mlaa_response [Fintype S] (P : Params) (h0 : 1 ≤ P.N0) (h1 : 1 ≤ P.N1)
    (h2 : 1 ≤ P.N2) (h3 : 1 ≤ P.N3) (G : S → S → ℕ → K) (ops : List (Op K S)) (hp : Proper ops)
    (hne : ops ≠ []) (σ : State K S) (hr : run P ops = some σ) :
    temporalSuperposition P G σ = some fun i =>
      ∑ j, superpose (G i j)
        (averaged (blockSizes P (hist ops).length) ((hist ops).map fun l => l j)) := by
  have hi := inv_run P h0 ops hp σ hr
  have hlen : 0 < (hist ops).length := by
    rw [List.length_pos_iff]; exact hist_ne_nil hne
  have hn0 := hi.n0
  have hpos : σ.n0 ≠ 0 := by omega
  obtain ⟨m, hm⟩ := Nat.exists_eq_succ_of_ne_zero hpos
  obtain ⟨hbs, hsum, hq0, hq⟩ := mlaa_partition P h0 h1 h2 h3 ops hp σ hr
  rw [temporalSuperposition, if_neg hpos]
  congr 1
  funext i
  rw [Finset.sum_comm, ← Finset.sum_add_distrib, ← Finset.sum_add_distrib,
    ← Finset.sum_add_distrib, ← Finset.sum_add_distrib, ← Finset.sum_add_distrib]
  refine Finset.sum_congr rfl fun j _ => ?_
  obtain ⟨q1, q2, q3, q4⟩ := hq j
  set H := (hist ops).map fun l => l j with hH
  have hHl : H.length = (hist ops).length := by simp [hH]
  -- the blocks held by the object
  set B : List (ℕ × K) := (List.range (m + 1)).map (fun k => (1, σ.Q0 (P.N0 - (k + 1)) j))
    ++ [(σ.n1, σ.Q1 j), (σ.n2, σ.Q2 j), (σ.n3, σ.Q3 j), (σ.n4, σ.Q4 j)] with hB
  have hresp : br (G i j) 0 B = superpose (G i j) (expand B) := by
    rw [hB, List.range_succ_eq_map, List.map_cons, List.cons_append]
    exact br_eq _ 0 _ _
  have hexp : expand B = averaged (blockSizes P (hist ops).length) H := by
    rw [← hbs, averaged_ones _ _ _ (by omega), hB, expand_append]
    congr 1
    · have : ∀ n, n ≤ σ.n0 → expand ((List.range n).map
          (fun k => ((1, σ.Q0 (P.N0 - (k + 1)) j) : ℕ × K))) = H.take n := by
        intro n hn
        induction n with
        | zero => simp [expand]
        | succ n ih =>
          rw [List.range_succ, List.map_append, expand_append, ih (by omega), List.take_add_one]
          congr 1
          have hq := hq0 n (by omega)
          have hidx : P.N0 - (n + 1) = P.N0 - 1 - n := by omega
          simp only [List.map_cons, List.map_nil, expand, List.replicate_one, List.append_nil, hidx,
            hq]
          rw [hH, List.getElem?_map, List.getElem?_eq_getElem (by omega),
            List.getD_eq_getElem _ _ (by omega)]
          simp
      rw [hm]; exact this (m + 1) (by omega)
    · rw [averaged_eq_expand _ _ (by simp; omega)]
      simp only [blk, expand, List.drop_drop, List.append_nil]
      have e : ∀ (n a : ℕ) (Q : K), (0 < n → Q = mean ((H.drop a).take n)) →
          List.replicate n Q = List.replicate n (mean ((H.drop a).take n)) := by
        intro n a Q hQ
        rcases Nat.eq_zero_or_pos n with rfl | hn
        · simp
        · rw [← hQ hn]
      rw [← e _ _ _ q1, ← e _ _ _ q2, ← e _ _ _ q3, ← e _ _ _ q4]
  rw [← hexp, ← hresp, hB, br_run]
  simp only [br, headv, List.headD_cons, List.headD_nil, zero_add, mul_one, Nat.add_sub_cancel, hm,
    Nat.succ_eq_add_one, sub_zero, add_zero]
  have e : ∀ t, t + 2 = t + 1 + 1 := fun t => by omega
  simp only [e]
  have c1 : ∀ x ∈ range m, G i j x * (σ.Q0 (P.N0 - (x + 1)) j - σ.Q0 (P.N0 - (x + 1 + 1)) j)
      = (σ.Q0 (P.N0 - (x + 1)) j - σ.Q0 (P.N0 - (x + 1 + 1)) j) * G i j x := fun x _ => mul_comm _ _
  rw [Finset.sum_congr rfl c1]
  ring

/-- **C05** (short histories).  While at most `N0` time steps have been taken the response
is the exact superposition. -/
theorem mlaa_exact_short [Fintype S] (P : Params) (h0 : 1 ≤ P.N0) (h1 : 1 ≤ P.N1)
    (h2 : 1 ≤ P.N2) (h3 : 1 ≤ P.N3) (G : S → S → ℕ → K) (ops : List (Op K S)) (hp : Proper ops)
    (hne : ops ≠ []) (hlen : (hist ops).length ≤ P.N0) (σ : State K S)
    (hr : run P ops = some σ) :
    temporalSuperposition P G σ = some fun i =>
      ∑ j, superpose (G i j) ((hist ops).map fun l => l j) := by
  rw [mlaa_response P h0 h1 h2 h3 G ops hp hne σ hr]
  congr 1
  funext i
  refine Finset.sum_congr rfl fun j _ => ?_
  congr 1
  have : blockSizes P (hist ops).length = List.replicate (hist ops).length 1 ++ [0, 0, 0, 0] := by
    simp only [blockSizes]
    rw [min_eq_left hlen, if_neg (by omega), if_neg (by omega), if_neg (by omega)]
    simp
  rw [this, averaged_ones _ _ _ (by simp)]
  simp [averaged]

/-- **C05** (constant loads).  A constant load on every source gives load times step
response, whatever the block sizes. -/
theorem mlaa_exact_constant [CharZero K] [Fintype S] (P : Params) (h0 : 1 ≤ P.N0) (h1 : 1 ≤ P.N1)
    (h2 : 1 ≤ P.N2) (h3 : 1 ≤ P.N3) (G : S → S → ℕ → K) (c : S → K) (n : ℕ) (ops : List (Op K S))
    (hp : Proper ops) (hh : hist ops = List.replicate (n + 1) c) (σ : State K S)
    (hr : run P ops = some σ) :
    temporalSuperposition P G σ = some fun i => ∑ j, c j * G i j n := by
  have hne : ops ≠ [] := by
    rintro rfl; simp [hist] at hh
  rw [mlaa_response P h0 h1 h2 h3 G ops hp hne σ hr]
  congr 1
  funext i
  refine Finset.sum_congr rfl fun j _ => ?_
  rw [hh]
  simp only [List.map_replicate, List.length_replicate]
  rw [averaged_const _ _ _ (blockSizes_sum P (n + 1)), superpose_const]

/-- **C05** (response proportional to time).  The response is then exact for every
history: it is the accumulated heat times the slope. -/
theorem mlaa_exact_proportional [CharZero K] [Fintype S] (P : Params) (h0 : 1 ≤ P.N0)
    (h1 : 1 ≤ P.N1) (h2 : 1 ≤ P.N2) (h3 : 1 ≤ P.N3) (a : S → S → K) (ops : List (Op K S))
    (hp : Proper ops) (hne : ops ≠ []) (σ : State K S) (hr : run P ops = some σ) :
    temporalSuperposition P (fun i j k => a i j * ((k : K) + 1)) σ = some fun i =>
      ∑ j, superpose (fun k => a i j * ((k : K) + 1)) ((hist ops).map fun l => l j) := by
  rw [mlaa_response P h0 h1 h2 h3 _ ops hp hne σ hr]
  congr 1
  funext i
  refine Finset.sum_congr rfl fun j _ => ?_
  rw [superpose_linear, superpose_linear, averaged_sum]
  rw [blockSizes_sum]; simp

/-- Example calls: six time steps with different loads, on blocks 2, 1, 1, 1. -/
def exOps : List (Op ℚ Unit) :=
  (List.range 6).flatMap fun k => [.next, .set fun _ => (k : ℚ) + 1]

/-- Non-vacuity: the calls succeed, are proper and non-trivial (all five blocks in use). -/
example : Proper exOps ∧ exOps ≠ [] ∧ (run ⟨8, 2, 1, 1, 1⟩ exOps).isSome ∧
    blockSizes ⟨8, 2, 1, 1, 1⟩ (hist exOps).length = [1, 1, 1, 1, 1, 1] := by
  have hp : Proper exOps := by simp [exOps, List.range_succ, Proper]
  refine ⟨hp, by simp [exOps, List.range_succ], ?_, ?_⟩
  · rw [mlaa_run_isSome_iff _ (by decide) _ hp]
    simp [exOps, List.range_succ, hist, histStep]
  · simp [exOps, List.range_succ, hist, histStep, blockSizes]

end Verif.LoadAgg.MLAA
