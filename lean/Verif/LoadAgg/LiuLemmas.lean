import Verif.LoadAgg.LiuModel
import Verif.LoadAgg.OpsLemmas
import Verif.LoadAgg.SpecLemmas

/-! # Helper lemmas for the Liu scheme -/

set_option linter.unusedSectionVars false

namespace Verif.LoadAgg.Liu

open Finset

variable {K : Type*} [Field K] {S : Type*}

theorem run_append (P : Params) (ops : List (Op K S)) (op : Op K S) :
    run P (ops ++ [op]) = (run P ops).bind fun σ => step P σ op := by
  simp [run]

theorem shiftLoop_eq (n : ℕ) (Q : ℕ → S → K) (i : ℕ) :
    shiftLoop n Q i = if 1 ≤ i ∧ i ≤ n - 1 then Q (i - 1) else Q i := by
  unfold shiftLoop
  generalize n - 1 = m
  induction m generalizing Q with
  | zero => simp; intro h1 h2; omega
  | succ m ih =>
    rw [List.range'_concat, List.reverse_append]
    simp only [one_mul, List.reverse_cons, List.reverse_nil, List.nil_append, List.cons_append,
      List.foldl_cons]
    rw [ih]
    by_cases h1 : 1 ≤ i ∧ i ≤ m
    · rw [if_pos h1, if_pos ⟨h1.1, by omega⟩, Function.update_of_ne (by omega)]
    · rw [if_neg h1]
      by_cases h2 : i = 1 + m
      · subst h2
        simp
        intro h3; omega
      · rw [Function.update_of_ne h2, if_neg (by omega)]

theorem push_zero (n : ℕ) (Q : ℕ → S → K) (v : S → K) : push n Q v 0 = v := by
  simp [push]

theorem push_succ (n : ℕ) (Q : ℕ → S → K) (v : S → K) (i : ℕ) (hi : i + 1 < n) :
    push n Q v (i + 1) = Q i := by
  simp only [push]
  rw [Function.update_of_ne (by omega), shiftLoop_eq, if_pos (by omega)]
  simp

/-- Mean of the `b` values of `H` that start at `a`. -/
def wm (H : ℕ → S → K) (a b : ℕ) : S → K := fun s => (∑ k ∈ range b, H (a + k) s) / (b : K)

/-- A level holds the means of `n` consecutive windows of size `b`, the first of which
starts at `a`. -/
def Lvl (H : ℕ → S → K) (a b n : ℕ) (Q : ℕ → S → K) : Prop :=
  ∀ i < n, Q i = wm H (a + i * b) b

theorem sum_range_blocks (f : ℕ → K) (N b : ℕ) :
    ∑ i ∈ range N, ∑ k ∈ range b, f (i * b + k) = ∑ k ∈ range (N * b), f k := by
  induction N with
  | zero => simp
  | succ N ih => rw [Finset.sum_range_succ, ih, Nat.succ_mul, Finset.sum_range_add]

theorem wm_blocks (H : ℕ → S → K) (a b N : ℕ) (s : S) :
    (∑ i ∈ range N, wm H (a + i * b) b s) / (N : K) = wm H a (N * b) s := by
  simp only [wm]
  rw [← Finset.sum_div, div_div, Nat.cast_mul, mul_comm (b : K)]
  congr 1
  rw [← sum_range_blocks]
  simp only [add_assoc]

/-- Moving the oldest `N` cells of a level into one new cell of the next level. -/
theorem promote_lvl (H : ℕ → S → K) (a b n N m : ℕ) (Q R : ℕ → S → K) (hn : N ≤ n)
    (hQ : Lvl H a b n Q) (hR : Lvl H (a + n * b) (N * b) m R) :
    Lvl H a b (n - N) Q ∧
      Lvl H (a + (n - N) * b) (N * b) (m + 1) (push (m + 1) R (tailMean Q n N)) := by
  refine ⟨fun i hi => hQ i (by omega), fun i hi => ?_⟩
  obtain ⟨d, rfl⟩ : ∃ d, n = d + N := ⟨n - N, by omega⟩
  simp only [Nat.add_sub_cancel] at *
  cases i with
  | zero =>
    rw [push_zero]
    funext s
    rw [zero_mul, add_zero, ← wm_blocks]
    simp only [tailMean, Nat.add_sub_cancel]
    congr 1
    refine Finset.sum_congr rfl fun i hi => ?_
    rw [Finset.mem_range] at hi
    rw [hQ (d + i) (by omega)]
    congr 1
    ring
  | succ i =>
    rw [push_succ _ _ _ _ hi, hR i (by omega)]
    congr 1
    ring

/-- Representation invariant. `H` is the load history, latest first; `u0`, `u1`, `u2` bound
the numbers of cells in use. -/
structure PInv (P : Params) (u0 u1 u2 n : ℕ) (H : ℕ → S → K) (σ : State K S) : Prop where
  nt : σ.nt = n
  sum : σ.n0 + σ.n1 * P.N1 + σ.n2 * (P.N2 * P.N1) + σ.n3 * (P.N3 * (P.N2 * P.N1)) = n
  pos : 1 ≤ n → 1 ≤ σ.n0
  b0 : σ.n0 ≤ u0
  b1 : σ.n1 ≤ u1
  b2 : σ.n2 ≤ u2
  b3 : σ.n3 ≤ P.N4
  w1 : P.W1 ≤ σ.n0 ∨ (σ.n1 = 0 ∧ σ.n2 = 0 ∧ σ.n3 = 0)
  w2 : P.W2 ≤ σ.n1 ∨ (σ.n2 = 0 ∧ σ.n3 = 0)
  w3 : P.W3 ≤ σ.n2 ∨ σ.n3 = 0
  l0 : Lvl H 0 1 σ.n0 σ.Q0
  l1 : Lvl H σ.n0 P.N1 σ.n1 σ.Q1
  l2 : Lvl H (σ.n0 + σ.n1 * P.N1) (P.N2 * P.N1) σ.n2 σ.Q2
  l3 : Lvl H (σ.n0 + σ.n1 * P.N1 + σ.n2 * (P.N2 * P.N1)) (P.N3 * (P.N2 * P.N1)) σ.n3 σ.Q3
  z1 : σ.n1 = 0 → ∀ i, σ.Q1 i = 0
  z2 : σ.n2 = 0 → ∀ i, σ.Q2 i = 0
  z3 : σ.n3 = 0 → ∀ i, σ.Q3 i = 0

/-- The invariant between calls. -/
abbrev Inv (P : Params) (n : ℕ) (H : ℕ → S → K) (σ : State K S) : Prop :=
  PInv P (P.N1 + P.W1 - 1) (P.N2 + P.W2 - 1) (P.N3 + P.W3 - 1) n H σ

/-- Hypotheses on the parameters: positive block sizes and waiting periods. -/
structure Good (P : Params) : Prop where
  N1 : 1 ≤ P.N1
  N2 : 1 ≤ P.N2
  N3 : 1 ≤ P.N3
  W1 : 1 ≤ P.W1
  W2 : 1 ≤ P.W2
  W3 : 1 ≤ P.W3

theorem inv_init (P : Params) : Inv P 0 (fun _ _ => 0) (init : State K S) := by
  constructor <;> simp [init, Lvl] <;> rfl

theorem lvl_shift (H H' : ℕ → S → K) (a b n : ℕ) (Q : ℕ → S → K)
    (hH : ∀ k, H' (k + 1) = H k) (h : Lvl H a b n Q) : Lvl H' (a + 1) b n Q := by
  intro i hi
  rw [h i hi]
  funext s
  simp only [wm]
  congr 1
  refine Finset.sum_congr rfl fun k _ => ?_
  rw [show a + 1 + i * b + k = (a + i * b + k) + 1 by ring, hH]

theorem lvl_cast {H : ℕ → S → K} {a a' b n : ℕ} {Q : ℕ → S → K} (h : Lvl H a b n Q)
    (e : a = a') : Lvl H a' b n Q := e ▸ h

/-- Large cells. -/
theorem inv_promote3 (P : Params) (hg : Good P) (n : ℕ) (H : ℕ → S → K) (σ : State K S)
    (hN : n ≤ P.N4 * (P.N3 * (P.N2 * P.N1)))
    (hi : PInv P (P.N1 + P.W1 - 1) (P.N2 + P.W2 - 1) (P.N3 + P.W3) n H σ) :
    ∃ σ', promote3 P σ = some σ' ∧ Inv P n H σ' := by
  obtain ⟨g1, g2, g3, v1, v2, v3⟩ := hg
  unfold promote3
  dsimp only
  have hb2 := hi.b2
  split_ifs with hc hf
  · exfalso
    have hs := hi.sum
    have h1 : P.N3 * (P.N2 * P.N1) ≤ σ.n2 * (P.N2 * P.N1) := Nat.mul_le_mul_right _ (by omega)
    have h2 : P.N4 * (P.N3 * (P.N2 * P.N1)) ≤ σ.n3 * (P.N3 * (P.N2 * P.N1)) :=
      Nat.mul_le_mul_right _ (by omega)
    have h3 : 0 < P.N3 * (P.N2 * P.N1) := by positivity
    omega
  · refine ⟨_, rfl, ?_⟩
    have hn2 : σ.n2 = P.N3 + P.W3 := by omega
    obtain ⟨p1, p2⟩ := promote_lvl H _ _ _ P.N3 _ _ _ (by omega) hi.l2 hi.l3
    have w1 := hi.w1; have w2 := hi.w2
    constructor
    · exact hi.nt
    · have := hi.sum
      simp only
      rw [← this, hn2, Nat.add_sub_cancel_left]; ring
    · exact hi.pos
    · exact hi.b0
    · exact hi.b1
    · simp only; omega
    · simp only; omega
    · simp only; omega
    · simp only; omega
    · simp only; omega
    · exact hi.l0
    · exact hi.l1
    · exact p1
    · exact p2
    · exact hi.z1
    · intro h0; simp only at h0; omega
    · intro h0; simp at h0
  · exact ⟨σ, rfl, { hi with b2 := by omega }⟩

/-- Medium cells. -/
theorem inv_promote2 (P : Params) (hg : Good P) (n : ℕ) (H : ℕ → S → K) (σ : State K S)
    (hN : n ≤ P.N4 * (P.N3 * (P.N2 * P.N1)))
    (hi : PInv P (P.N1 + P.W1 - 1) (P.N2 + P.W2) (P.N3 + P.W3 - 1) n H σ) :
    ∃ σ', promote2 P σ = some σ' ∧ Inv P n H σ' := by
  obtain ⟨g1, g2, g3, v1, v2, v3⟩ := id hg
  unfold promote2
  dsimp only
  have hb1 := hi.b1
  have hb2 := hi.b2
  split_ifs with hc hf
  · omega
  · have hn1 : σ.n1 = P.N2 + P.W2 := by omega
    apply inv_promote3 P hg n H _ hN
    obtain ⟨p1, p2⟩ := promote_lvl H _ _ _ P.N2 _ _ _ (by omega) hi.l1 hi.l2
    have w1 := hi.w1; have w2 := hi.w2; have w3 := hi.w3
    constructor
    · exact hi.nt
    · have := hi.sum
      simp only
      rw [← this, hn1, Nat.add_sub_cancel_left]; ring
    · exact hi.pos
    · exact hi.b0
    · simp only; omega
    · simp only; omega
    · exact hi.b3
    · simp only; omega
    · simp only; omega
    · simp only; omega
    · exact hi.l0
    · exact p1
    · exact p2
    · refine lvl_cast hi.l3 ?_
      simp only
      rw [hn1, Nat.add_sub_cancel_left]; ring
    · intro h0; simp only at h0; omega
    · intro h0; simp at h0
    · exact hi.z3
  · exact ⟨σ, rfl, { hi with b1 := by omega }⟩

/-- Small cells. -/
theorem inv_promote1 (P : Params) (hg : Good P) (n : ℕ) (H : ℕ → S → K) (σ : State K S)
    (hN : n ≤ P.N4 * (P.N3 * (P.N2 * P.N1)))
    (hi : PInv P (P.N1 + P.W1) (P.N2 + P.W2 - 1) (P.N3 + P.W3 - 1) n H σ) :
    ∃ σ', promote1 P σ = some σ' ∧ Inv P n H σ' := by
  obtain ⟨g1, g2, g3, v1, v2, v3⟩ := id hg
  unfold promote1
  dsimp only
  have hb0 := hi.b0
  have hb1 := hi.b1
  split_ifs with hc hf
  · omega
  · have hn0 : σ.n0 = P.N1 + P.W1 := by omega
    apply inv_promote2 P hg n H _ hN
    have hl1 : Lvl H (0 + σ.n0 * 1) (P.N1 * 1) σ.n1 σ.Q1 := by simpa using hi.l1
    obtain ⟨p1, p2⟩ := promote_lvl H _ _ _ P.N1 _ _ _ (by omega) hi.l0 hl1
    have w1 := hi.w1; have w2 := hi.w2; have w3 := hi.w3
    constructor
    · exact hi.nt
    · have := hi.sum
      simp only
      rw [← this, hn0, Nat.add_sub_cancel_left]; ring
    · simp only; omega
    · simp only; omega
    · simp only; omega
    · exact hi.b2
    · exact hi.b3
    · simp only; omega
    · simp only; omega
    · exact hi.w3
    · exact p1
    · simpa using p2
    · refine lvl_cast hi.l2 ?_
      simp only
      rw [hn0, Nat.add_sub_cancel_left]; ring
    · refine lvl_cast hi.l3 ?_
      simp only
      rw [hn0, Nat.add_sub_cancel_left]; ring
    · intro h0; simp at h0
    · exact hi.z2
    · exact hi.z3
  · exact ⟨σ, rfl, { hi with b0 := by omega }⟩

theorem inv_next (P : Params) (hg : Good P) (n : ℕ) (H H' : ℕ → S → K) (σ : State K S)
    (hH0 : H' 0 = 0) (hH : ∀ k, H' (k + 1) = H k)
    (hN : n + 1 ≤ P.N4 * (P.N3 * (P.N2 * P.N1))) (hi : Inv P n H σ) :
    ∃ σ', nextTimeStep P σ = some σ' ∧ Inv P (n + 1) H' σ' := by
  obtain ⟨g1, g2, g3, v1, v2, v3⟩ := id hg
  unfold nextTimeStep
  dsimp only
  have hb0 := hi.b0
  rw [if_neg (by omega)]
  apply inv_promote1 P hg _ _ _ hN
  have w1 := hi.w1
  constructor
  · simp only; rw [hi.nt]
  · simp only; rw [← hi.sum]; ring
  · simp
  · simp only; omega
  · exact hi.b1
  · exact hi.b2
  · exact hi.b3
  · simp only; omega
  · exact hi.w2
  · exact hi.w3
  · intro i hin
    simp only at hin
    cases i with
    | zero =>
      simp only; rw [push_zero]
      funext s; simp [wm, hH0]
    | succ i =>
      simp only
      rw [push_succ _ _ _ _ hin, hi.l0 i (by omega)]
      funext s
      simp [wm, hH]
  · exact lvl_shift H H' _ _ _ _ hH hi.l1
  · exact lvl_cast (lvl_shift H H' _ _ _ _ hH hi.l2) (by simp only; ring)
  · exact lvl_cast (lvl_shift H H' _ _ _ _ hH hi.l3) (by simp only; ring)
  · exact hi.z1
  · exact hi.z2
  · exact hi.z3

theorem lvl_congr {H H' : ℕ → S → K} {a b n : ℕ} {Q : ℕ → S → K} (ha : 1 ≤ a)
    (hH : ∀ k, 1 ≤ k → H' k = H k) (h : Lvl H a b n Q) : Lvl H' a b n Q := by
  intro i hi
  rw [h i hi]
  funext s
  simp only [wm]
  congr 1
  exact Finset.sum_congr rfl fun k _ => by rw [hH _ (by omega)]

theorem inv_set (P : Params) (n : ℕ) (H H' : ℕ → S → K) (σ : State K S) (l : S → K)
    (hH0 : H' 0 = l) (hH : ∀ k, 1 ≤ k → H' k = H k) (hn : 1 ≤ n) (hi : Inv P n H σ) :
    Inv P n H' (setCurrentLoad σ l) := by
  have hp := hi.pos hn
  refine { hi with l0 := ?_, l1 := ?_, l2 := ?_, l3 := ?_ }
  · intro i hin
    simp only [setCurrentLoad] at hin ⊢
    cases i with
    | zero => funext s; simp [wm, hH0]
    | succ i =>
      rw [Function.update_of_ne (by omega), hi.l0 (i + 1) hin]
      funext s
      simp [wm, hH]
  · exact lvl_congr hp hH hi.l1
  · exact lvl_congr (by simp only [setCurrentLoad]; omega) hH hi.l2
  · exact lvl_congr (by simp only [setCurrentLoad]; omega) hH hi.l3

/-- Every proper sequence of calls succeeds while the number of time steps fits, and keeps
the invariant. -/
theorem inv_run (P : Params) (hg : Good P) (ops : List (Op K S)) (hp : Proper ops)
    (hN : (hist ops).length ≤ P.N4 * (P.N3 * (P.N2 * P.N1))) :
    ∃ σ, run P ops = some σ ∧ Inv P (hist ops).length (fun k => (hist ops).getD k 0) σ := by
  induction ops using List.reverseRecOn with
  | nil =>
    refine ⟨init, rfl, ?_⟩
    have := inv_init (K := K) (S := S) P
    exact this
  | append_singleton ops op ih =>
    obtain ⟨hp', hop⟩ := proper_append hp
    rw [run_append, hist_append]
    rw [hist_append] at hN
    cases op with
    | next =>
      simp only [histStep, List.length_cons] at hN ⊢
      obtain ⟨τ, hr, hi⟩ := ih hp' (by omega)
      rw [hr]
      exact inv_next P hg _ _ _ τ rfl (fun k => by simp) hN hi
    | set l =>
      have hne : hist ops ≠ [] := by
        intro h
        rw [hist_eq_nil_iff] at h
        exact absurd (hop h) (by simp)
      obtain ⟨a, t, hat⟩ := List.exists_cons_of_ne_nil hne
      rw [hat] at hN ih
      simp only [histStep, List.length_cons, List.tail_cons] at hN ih
      obtain ⟨τ, hr, hi⟩ := ih hp' hN
      rw [hr, hat]
      refine ⟨setCurrentLoad τ l, rfl, ?_⟩
      simp only [histStep, List.length_cons, List.tail_cons]
      refine inv_set P _ _ _ τ l (by simp) ?_ (by omega) hi
      intro k hk
      obtain ⟨m, rfl⟩ := Nat.exists_eq_succ_of_ne_zero (by omega : k ≠ 0)
      simp

theorem wm_eq_mean (h : List (S → K)) (a b : ℕ) (hab : a + b ≤ h.length) (s : S) :
    wm (fun k => h.getD k 0) a b s = mean (((h.map fun l => l s).drop a).take b) := by
  have hlen : (((h.map fun l => l s).drop a).take b).length = b := by simp; omega
  simp only [wm, mean]
  rw [hlen]
  congr 1
  have hsum : ∀ (L : List K), L.sum = ∑ k ∈ range L.length, L.getD k 0 := by
    intro L
    induction L with
    | nil => simp
    | cons v t ih => rw [List.length_cons, Finset.sum_range_succ']; simp at *; rw [ih]; ring
  rw [hsum, hlen]
  refine Finset.sum_congr rfl fun k hk => ?_
  rw [Finset.mem_range] at hk
  simp only [List.getD_eq_getElem?_getD]
  rw [List.getElem?_take_of_lt hk, List.getElem?_drop, List.getElem?_map,
    List.getElem?_eq_getElem (by omega)]
  simp

/-- Averaging over `n` blocks of equal size. -/
theorem averaged_replicate (n b : ℕ) (bs : List ℕ) (h : List K) :
    averaged (List.replicate n b ++ bs) h
      = expand ((List.range n).map fun i => (b, mean ((h.drop (i * b)).take b)))
        ++ averaged bs (h.drop (n * b)) := by
  induction n generalizing h with
  | zero => simp [expand]
  | succ n ih =>
    rw [List.replicate_succ, List.cons_append, averaged, ih, List.range_succ_eq_map]
    simp only [List.map_cons, List.map_map, expand, zero_mul, List.drop_zero, List.append_assoc,
      List.drop_drop]
    congr 3
    · apply List.map_congr_left
      intro i _
      simp only [Function.comp]
      rw [show b + i * b = Nat.succ i * b by rw [Nat.succ_mul]; ring]
    · rw [show b + n * b = (n + 1) * b by ring]

end Verif.LoadAgg.Liu
