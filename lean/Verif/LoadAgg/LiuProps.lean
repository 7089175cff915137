import Verif.LoadAgg.LiuLemmas

/-!
# Properties C06, C07: Liu load aggregation
-/

namespace Verif.LoadAgg.Liu

open Finset

variable {K : Type*} [Field K] {S : Type*}

/-- The block sizes in use, latest first: single steps, small, medium and large cells. -/
def sizes (P : Params) (σ : State K S) : List ℕ :=
  List.replicate σ.n0 1 ++ List.replicate σ.n1 P.N1 ++ List.replicate σ.n2 (P.N1 * P.N2)
    ++ List.replicate σ.n3 (P.N1 * P.N2 * P.N3)

/-- The allocated number of large cells suffices for `Nt` time steps. -/
theorem n4_enough (P : Params) (Nt : ℕ) (hg : Good P) (h4 : P.N4Ok Nt) :
    Nt ≤ P.N4 * (P.N3 * (P.N2 * P.N1)) := by
  obtain ⟨g1, g2, g3, -, -, -⟩ := hg
  have hB : 0 < P.N1 * P.N2 * P.N3 := by positivity
  rw [show P.N3 * (P.N2 * P.N1) = P.N1 * P.N2 * P.N3 by ring, h4]
  generalize P.N1 * P.N2 * P.N3 = B at hB
  have := Nat.div_add_mod (Nt + (B - 1)) B
  have := Nat.mod_lt (Nt + (B - 1)) hB
  rw [mul_comm B] at *
  omega

/-- One level of the response: `n` blocks of size `b` with values `Q`, where an empty level
holds zeros, followed by the blocks `t`. -/
theorem level (G : ℕ → K) (o b n cap : ℕ) (Q : ℕ → K) (t : List (ℕ × K))
    (hz : n = 0 → ∀ i, Q i = 0) :
    - (Q 0 * G (o - 1)) + ∑ i ∈ range (n - 1), (Q i - Q (i + 1)) * G (o + (i + 1) * b - 1)
      + Q (pyPred cap n) * G (o + n * b - 1)
      + (br G (o + n * b) t - headv t * G (o + n * b - 1))
      = br G o ((List.range n).map (fun k => (b, Q k)) ++ t)
        - headv ((List.range n).map (fun k => (b, Q k)) ++ t) * G (o - 1) := by
  cases n with
  | zero => simp [hz rfl]
  | succ n =>
    rw [br_run, pyPred, if_neg (by omega)]
    have : headv ((List.range (n + 1)).map (fun k => (b, Q k)) ++ t) = Q 0 := by
      rw [List.range_succ_eq_map]; rfl
    rw [this]
    simp only [Nat.add_sub_cancel]
    ring

/-- **C06** (coverage).  With positive block sizes and waiting periods, every proper sequence
of at most `Nt` time steps succeeds (no level overflows its storage), the cells cover every
past time step exactly once, the waiting periods are respected, and every cell holds the mean
of the loads of its own window. -/
theorem liu_partition (P : Params) (Nt : ℕ) (hg : Good P) (h4 : P.N4Ok Nt)
    (ops : List (Op K S)) (hp : Proper ops) (hN : (hist ops).length ≤ Nt) :
    ∃ σ, run P ops = some σ ∧
      (sizes P σ).sum = (hist ops).length ∧
      σ.n0 ≤ P.N1 + P.W1 ∧ σ.n1 ≤ P.N2 + P.W2 ∧ σ.n2 ≤ P.N3 + P.W3 ∧ σ.n3 ≤ P.N4 ∧
      (P.W1 ≤ σ.n0 ∨ (σ.n1 = 0 ∧ σ.n2 = 0 ∧ σ.n3 = 0)) ∧
      (P.W2 ≤ σ.n1 ∨ (σ.n2 = 0 ∧ σ.n3 = 0)) ∧ (P.W3 ≤ σ.n2 ∨ σ.n3 = 0) ∧
      ∀ s, let H := (hist ops).map fun l => l s
        (∀ i < σ.n0, some (σ.Q0 i s) = H[i]?) ∧
        (∀ i < σ.n1, σ.Q1 i s = mean ((H.drop (σ.n0 + i * P.N1)).take P.N1)) ∧
        (∀ i < σ.n2, σ.Q2 i s = mean ((H.drop (σ.n0 + σ.n1 * P.N1 + i * (P.N1 * P.N2))).take
          (P.N1 * P.N2))) ∧
        (∀ i < σ.n3, σ.Q3 i s = mean ((H.drop (σ.n0 + σ.n1 * P.N1 + σ.n2 * (P.N1 * P.N2)
          + i * (P.N1 * P.N2 * P.N3))).take (P.N1 * P.N2 * P.N3))) := by
  obtain ⟨σ, hr, hi⟩ := inv_run P hg ops hp (hN.trans (n4_enough P Nt hg h4))
  have e2 : P.N1 * P.N2 = P.N2 * P.N1 := by ring
  have e3 : P.N1 * P.N2 * P.N3 = P.N3 * (P.N2 * P.N1) := by ring
  have hsum := hi.sum
  have b0 := hi.b0
  have b1 := hi.b1
  have b2 := hi.b2
  have key : ∀ m n b : ℕ, ∀ i < n, m + n * b ≤ (hist ops).length →
      m + i * b + b ≤ (hist ops).length := by
    intro m n b i hin hle
    have : (i + 1) * b ≤ n * b := Nat.mul_le_mul_right _ hin
    rw [Nat.succ_mul] at this
    omega
  refine ⟨σ, hr, ?_, by omega, by omega, by omega, hi.b3, hi.w1, hi.w2, hi.w3, fun s => ⟨?_, ?_, ?_, ?_⟩⟩
  · simp only [sizes, List.sum_append, List.sum_replicate, smul_eq_mul, mul_one]
    rw [e3, e2]; exact hsum
  · intro i hin
    rw [hi.l0 i hin]
    simp only [wm]
    rw [List.getElem?_map, List.getElem?_eq_getElem (by omega)]
    simp
    rw [List.getElem?_eq_getElem (by omega)]
    simp
  · intro i hin
    rw [hi.l1 i hin, wm_eq_mean _ _ _ (key _ _ _ i hin (by omega))]
  · intro i hin
    rw [hi.l2 i hin, wm_eq_mean _ _ _ (key _ _ _ i hin (by omega)), e2]
  · intro i hin
    rw [hi.l3 i hin, wm_eq_mean _ _ _ (key _ _ _ i hin (by omega)), e3, e2]

/-- **C06** (response).  The returned temperature is the exact temporal superposition of the
history in which every load is replaced by the mean of its cell, summed over the sources. -/
theorem liu_response [Fintype S] (P : Params) (Nt Ng : ℕ) (hg : Good P) (h4 : P.N4Ok Nt)
    (G : S → S → ℕ → K) (ops : List (Op K S)) (hp : Proper ops) (hne : ops ≠ [])
    (hN : (hist ops).length ≤ Nt) :
    ∃ σ, run P ops = some σ ∧ ∀ i, temporalSuperposition P Ng G σ i
      = ∑ j, superpose (G i j) (averaged (sizes P σ) ((hist ops).map fun l => l j)) := by
  obtain ⟨σ, hr, hi⟩ := inv_run P hg ops hp (hN.trans (n4_enough P Nt hg h4))
  obtain ⟨σ', hr', hs, -, -, -, -, -, -, -, hv⟩ := liu_partition P Nt hg h4 ops hp hN
  obtain rfl : σ = σ' := by rw [hr] at hr'; exact Option.some.inj hr'
  refine ⟨σ, hr, fun i => ?_⟩
  have hlen : 0 < (hist ops).length := by
    rw [List.length_pos_iff]; exact hist_ne_nil hne
  have hpos := hi.pos hlen
  obtain ⟨m, hm⟩ := Nat.exists_eq_succ_of_ne_zero (by omega : σ.n0 ≠ 0)
  simp only [temporalSuperposition]
  rw [Finset.sum_comm (s := range (σ.n0 - 1)), Finset.sum_comm (s := range (σ.n1 - 1)),
    Finset.sum_comm (s := range (σ.n2 - 1)), Finset.sum_comm (s := range (σ.n3 - 1))]
  simp only [← Finset.sum_add_distrib]
  refine Finset.sum_congr rfl fun j _ => ?_
  obtain ⟨v0, v1, v2, v3⟩ := hv j
  have hn0le : σ.n0 ≤ (hist ops).length := by
    rw [← hi.sum]; omega
  set H := (hist ops).map fun l => l j with hH
  have hHl : H.length = (hist ops).length := by simp [hH]
  set L0 : List (ℕ × K) := (List.range σ.n0).map fun k => (1, σ.Q0 k j) with hL0
  set L1 : List (ℕ × K) := (List.range σ.n1).map fun k => (P.N1, σ.Q1 k j) with hL1
  set L2 : List (ℕ × K) := (List.range σ.n2).map fun k => (P.N1 * P.N2, σ.Q2 k j) with hL2
  set L3 : List (ℕ × K) := (List.range σ.n3).map fun k => (P.N1 * P.N2 * P.N3, σ.Q3 k j) with hL3
  have hexp : expand (L0 ++ (L1 ++ (L2 ++ L3))) = averaged (sizes P σ) H := by
    rw [sizes, List.append_assoc, List.append_assoc, averaged_replicate, averaged_replicate,
      averaged_replicate, ← List.append_nil (List.replicate σ.n3 _), averaged_replicate]
    rw [expand_append, expand_append, expand_append]
    simp only [averaged, List.drop_drop, mul_one]
    rw [List.drop_of_length_le (by
      simp only [sizes, List.sum_append, List.sum_replicate, smul_eq_mul, mul_one] at hs
      rw [hHl]; omega), List.append_nil]
    congr 1
    · congr 1
      apply List.map_congr_left
      intro k hk
      rw [List.mem_range] at hk
      have := v0 k hk
      rw [List.getElem?_eq_getElem (by omega)] at this
      simp only [Option.some.injEq] at this
      rw [this]
      simp only [mean, Prod.mk.injEq, true_and]
      rw [List.take_one_drop_eq_of_lt_length (by omega)]
      simp
    congr 1
    · congr 1
      apply List.map_congr_left
      intro k hk
      rw [List.mem_range] at hk
      rw [v1 k hk]
    congr 1
    · congr 1
      apply List.map_congr_left
      intro k hk
      rw [List.mem_range] at hk
      rw [v2 k hk]
    · congr 1
      apply List.map_congr_left
      intro k hk
      rw [List.mem_range] at hk
      rw [v3 k hk]
  have hresp : br (G i j) 0 (L0 ++ (L1 ++ (L2 ++ L3)))
      = superpose (G i j) (expand (L0 ++ (L1 ++ (L2 ++ L3)))) := by
    rw [hL0, hm, List.range_succ_eq_map, List.map_cons, List.cons_append]
    exact br_eq _ 0 _ _
  rw [← hexp, ← hresp]
  have k3 := level (G i j) (σ.n0 + σ.n1 * P.N1 + σ.n2 * (P.N1 * P.N2)) (P.N1 * P.N2 * P.N3) σ.n3
    P.N4 (fun k => σ.Q3 k j) [] (fun h k => by rw [hi.z3 h]; rfl)
  have k2 := level (G i j) (σ.n0 + σ.n1 * P.N1) (P.N1 * P.N2) σ.n2
    (P.N3 + P.W3) (fun k => σ.Q2 k j) L3 (fun h k => by rw [hi.z2 h]; rfl)
  have k1 := level (G i j) σ.n0 P.N1 σ.n1
    (P.N2 + P.W2) (fun k => σ.Q1 k j) (L2 ++ L3) (fun h k => by rw [hi.z1 h]; rfl)
  have k0 := br_run (G i j) 0 1 m (fun k => σ.Q0 k j) (L1 ++ (L2 ++ L3))
  rw [List.append_nil, ← hL3] at k3
  rw [← hL2] at k2
  rw [← hL1] at k1
  rw [hm] at hL0
  rw [← hL0] at k0
  rw [k0]
  have i1 : pyPred Ng σ.n0 = σ.n0 - 1 := by rw [pyPred, if_neg (by omega)]
  have i2 : pyPred (P.N1 + P.W1) σ.n0 = m := by rw [pyPred, if_neg (by omega)]; omega
  have i3 : σ.n0 + σ.n1 * P.N1 + σ.n2 * P.N1 * P.N2
      = σ.n0 + σ.n1 * P.N1 + σ.n2 * (P.N1 * P.N2) := by ring
  have i4 : σ.n0 + (σ.n1 * P.N1 + σ.n2 * P.N1 * P.N2 + σ.n3 * P.N1 * P.N2 * P.N3)
      = σ.n0 + σ.n1 * P.N1 + σ.n2 * (P.N1 * P.N2) + σ.n3 * (P.N1 * P.N2 * P.N3) := by ring
  have i5 : ∀ t, σ.n0 + σ.n1 * P.N1 + (t + 1) * P.N2 * P.N1
      = σ.n0 + σ.n1 * P.N1 + (t + 1) * (P.N1 * P.N2) := fun t => by ring
  have i6 : ∀ t, σ.n0 + σ.n1 * P.N1 + σ.n2 * P.N2 * P.N1 + (t + 1) * P.N3 * P.N2 * P.N1
      = σ.n0 + σ.n1 * P.N1 + σ.n2 * (P.N1 * P.N2) + (t + 1) * (P.N1 * P.N2 * P.N3) :=
    fun t => by ring
  have ip : ∀ x, 1 ≤ x → pyPred Ng x = x - 1 := fun x hx => by rw [pyPred, if_neg (by omega)]
  have hmc : ∀ (n : ℕ) (f g : ℕ → K), ∑ t ∈ range n, f t * g t = ∑ t ∈ range n, g t * f t :=
    fun n f g => Finset.sum_congr rfl fun t _ => mul_comm _ _
  simp only [i1, i2, i3, i4, i5, i6]
  rw [ip _ (by omega), ip _ (by omega), ip _ (by omega)]
  rw [hmc (σ.n0 - 1), hmc (σ.n1 - 1), hmc (σ.n2 - 1), hmc (σ.n3 - 1)]
  simp only [mul_one, zero_add, Nat.add_sub_cancel, br, headv, List.headD_nil, hm,
    Nat.succ_eq_add_one] at k0 k1 k2 k3 ⊢
  linear_combination k1 + k2 + k3

/-- **C06** (constant loads).  A constant load on every source gives load times step
response, whatever the block sizes. -/
theorem liu_exact_constant [CharZero K] [Fintype S] (P : Params) (Nt Ng : ℕ) (hg : Good P)
    (h4 : P.N4Ok Nt) (G : S → S → ℕ → K) (c : S → K) (n : ℕ) (ops : List (Op K S))
    (hp : Proper ops) (hh : hist ops = List.replicate (n + 1) c) (hN : n + 1 ≤ Nt) :
    ∃ σ, run P ops = some σ ∧ ∀ i, temporalSuperposition P Ng G σ i = ∑ j, c j * G i j n := by
  have hne : ops ≠ [] := by rintro rfl; simp [hist] at hh
  have hN' : (hist ops).length ≤ Nt := by rw [hh]; simpa using hN
  obtain ⟨σ, hr, h⟩ := liu_response P Nt Ng hg h4 G ops hp hne hN'
  obtain ⟨σ', hr', hs, -⟩ := liu_partition P Nt hg h4 ops hp hN'
  obtain rfl : σ = σ' := by rw [hr] at hr'; exact Option.some.inj hr'
  refine ⟨σ, hr, fun i => ?_⟩
  rw [h i]
  refine Finset.sum_congr rfl fun j _ => ?_
  rw [hh] at hs ⊢
  simp only [List.map_replicate, List.length_replicate] at hs ⊢
  rw [averaged_const _ _ _ hs, superpose_const]

/-- **C06** (response proportional to time).  The response is then exact for every
history. -/
theorem liu_exact_proportional [CharZero K] [Fintype S] (P : Params) (Nt Ng : ℕ) (hg : Good P)
    (h4 : P.N4Ok Nt) (a : S → S → K) (ops : List (Op K S)) (hp : Proper ops) (hne : ops ≠ [])
    (hN : (hist ops).length ≤ Nt) :
    ∃ σ, run P ops = some σ ∧
      ∀ i, temporalSuperposition P Ng (fun i j k => a i j * ((k : K) + 1)) σ i
        = ∑ j, a i j * ((hist ops).map fun l => l j).sum := by
  obtain ⟨σ, hr, h⟩ := liu_response P Nt Ng hg h4 (fun i j k => a i j * ((k : K) + 1)) ops hp hne hN
  obtain ⟨σ', hr', hs, -⟩ := liu_partition P Nt hg h4 ops hp hN
  obtain rfl : σ = σ' := by rw [hr] at hr'; exact Option.some.inj hr'
  refine ⟨σ, hr, fun i => ?_⟩
  rw [h i]
  refine Finset.sum_congr rfl fun j _ => ?_
  rw [superpose_linear, averaged_sum]
  rw [hs]; simp

/-- Non-vacuity for C06: block sizes 2, 2, 2, waiting periods 1, 1, 1, forty time steps. -/
example : Good ⟨2, 2, 2, 1, 1, 1, 5⟩ ∧ Params.N4Ok ⟨2, 2, 2, 1, 1, 1, 5⟩ 40 ∧
    Proper ((List.range 20).flatMap fun k => [.next, .set fun _ => (k : ℚ) + 1] : List (Op ℚ Unit))
    := by
  refine ⟨⟨by decide, by decide, by decide, by decide, by decide, by decide⟩, ?_, ?_⟩
  · simp [Params.N4Ok]
  · simp [List.range_succ, Proper]

/-- Non-vacuity for C06: twelve steps on these parameters fill all four levels. -/
example : (run ⟨2, 2, 2, 1, 1, 1, 5⟩ ((List.range 15).flatMap fun k =>
      [.next, .set fun _ => (k : ℚ) + 1] : List (Op ℚ Unit))).map
        (fun σ => (σ.n0, σ.n1, σ.n2, σ.n3)) = some (1, 1, 1, 1) := by
  decide

/-- **C07** fails for `W1 = 0`: the load of the first step is aggregated before it is set
and is lost.  With a response proportional to time, every scheme that counts each load once
returns the total heat (here 1), but the code returns 0. -/
theorem liu_zero_waiting_1 :
    let P : Params := ⟨1, 2, 2, 0, 1, 1, 5⟩
    let ops : List (Op ℚ Unit) := [.next, .set fun _ => 1, .next]
    Proper ops ∧ ((hist ops).map fun l => l ()).sum = 1 ∧
    ∃ σ, run P ops = some σ ∧
      temporalSuperposition P 20 (fun _ _ k => (k : ℚ) + 1) σ () = 0 := by
  refine ⟨trivial, by simp [hist, histStep], _, rfl, ?_⟩
  simp [temporalSuperposition, pyPred, tailMean, push, shiftLoop, Function.update, init,
    setCurrentLoad]

/-- **C07** fails for `W2 = 0`: after all small cells have been merged into a medium cell,
stale small cells enter the response (2 instead of the total heat 1). -/
theorem liu_zero_waiting_2 :
    let P : Params := ⟨1, 2, 2, 1, 0, 1, 5⟩
    let ops : List (Op ℚ Unit) := [.next, .set fun _ => 1, .next, .set fun _ => 0, .next]
    Proper ops ∧ ((hist ops).map fun l => l ()).sum = 1 ∧
    ∃ σ, run P ops = some σ ∧
      temporalSuperposition P 20 (fun _ _ k => (k : ℚ) + 1) σ () = 2 := by
  refine ⟨trivial, by simp [hist, histStep], _, rfl, ?_⟩
  simp [temporalSuperposition, pyPred, tailMean, push, shiftLoop, Function.update, init,
    setCurrentLoad, Finset.sum_range_succ]
  norm_num

/-- **C07** fails for `W3 = 0` in the same way (3 instead of the total heat 1). -/
theorem liu_zero_waiting_3 :
    let P : Params := ⟨1, 1, 2, 1, 1, 0, 5⟩
    let ops : List (Op ℚ Unit) := [.next, .set fun _ => 1, .next, .next, .next]
    Proper ops ∧ ((hist ops).map fun l => l ()).sum = 1 ∧
    ∃ σ, run P ops = some σ ∧
      temporalSuperposition P 20 (fun _ _ k => (k : ℚ) + 1) σ () = 3 := by
  refine ⟨trivial, by simp [hist, histStep], _, rfl, ?_⟩
  simp [temporalSuperposition, pyPred, tailMean, push, shiftLoop, Function.update, init,
    setCurrentLoad, Finset.sum_range_succ]
  norm_num

/-- **C07**, the part that holds: with waiting periods of at least one time step every load is
counted exactly once and the response is the superposition of the aggregated history; a response
proportional to time gives the total heat.  Missing: waiting periods of zero, for which the
three theorems above give counterexamples. -/
theorem liu_waiting_partial [CharZero K] [Fintype S] (P : Params) (Nt Ng : ℕ)
    (hN : 1 ≤ P.N1 ∧ 1 ≤ P.N2 ∧ 1 ≤ P.N3) (hW : 1 ≤ P.W1 ∧ 1 ≤ P.W2 ∧ 1 ≤ P.W3) (h4 : P.N4Ok Nt)
    (G : S → S → ℕ → K) (ops : List (Op K S)) (hp : Proper ops) (hne : ops ≠ [])
    (hlen : (hist ops).length ≤ Nt) :
    ∃ σ, run P ops = some σ ∧ (sizes P σ).sum = (hist ops).length ∧
      (∀ i, temporalSuperposition P Ng G σ i
        = ∑ j, superpose (G i j) (averaged (sizes P σ) ((hist ops).map fun l => l j))) ∧
      ∀ i, temporalSuperposition P Ng (fun _ _ k => (k : K) + 1) σ i
        = ∑ j, ((hist ops).map fun l => l j).sum := by
  have hg : Good P := ⟨hN.1, hN.2.1, hN.2.2, hW.1, hW.2.1, hW.2.2⟩
  obtain ⟨σ, hr, h⟩ := liu_response P Nt Ng hg h4 G ops hp hne hlen
  obtain ⟨σ', hr', hs, -⟩ := liu_partition P Nt hg h4 ops hp hlen
  obtain rfl : σ = σ' := by rw [hr] at hr'; exact Option.some.inj hr'
  obtain ⟨σ', hr', hl⟩ := liu_exact_proportional P Nt Ng hg h4 (fun _ _ => 1) ops hp hne hlen
  obtain rfl : σ = σ' := by rw [hr] at hr'; exact Option.some.inj hr'
  exact ⟨σ, hr, hs, h, fun i => by simpa using hl i⟩

end Verif.LoadAgg.Liu
