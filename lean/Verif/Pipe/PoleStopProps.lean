import Verif.Pipe.PoleProps

/-!
# Property C70: the stopping rule of the multipole iteration (violated: the measure of convergence is a spread, not a size)
-/

noncomputable section

namespace Verif.Pipe.Pole

open ComplexConjugate

variable {n J : ℕ}

/-! ### Specification -/

/-- Multipoles after `k` applications of (EQ. 38) to zero multipoles. -/
def seq (s : Sec n) (q : Fin n → ℝ) (J k : ℕ) : Fin n → Fin J → ℂ := (s.next q)^[k] fun _ _ => 0

/-- The changes of the multipoles in pass `k + 1`. -/
def changes (s : Sec n) (q : Fin n → ℝ) (J k : ℕ) : Set ℝ := Set.range fun x : Fin n × Fin J => ‖seq s q J (k + 1) x.1 x.2 - seq s q J k x.1 x.2‖

/-- Pass `k + 1` changes some multipole by `hi` and none by more. -/
def LargestChange (s : Sec n) (q : Fin n → ℝ) (J k : ℕ) (hi : ℝ) : Prop := IsGreatest (changes s q J k) hi

/-- Difference between the largest and the smallest change. -/
def Spread (s : Sec n) (q : Fin n → ℝ) (J k : ℕ) (d : ℝ) : Prop := ∃ hi lo, IsGreatest (changes s q J k) hi ∧ IsLeast (changes s q J k) lo ∧ d = hi - lo

/-! ### Proof -/

theorem changes_finite (s : Sec n) (q : Fin n → ℝ) (J k : ℕ) : (changes s q J k).Finite := Set.finite_range _

theorem diff_spread (s : Sec n) (q : Fin n → ℝ) (hn : 0 < n) (hJ : 0 < J) (k : ℕ) : Spread s q J k (diff (seq s q J k) (seq s q J (k + 1))) := by
  have : Nonempty (Fin n × Fin J) := ⟨(⟨0, hn⟩, ⟨0, hJ⟩)⟩
  have hne : (changes s q J k).Nonempty := Set.range_nonempty _
  refine ⟨sSup (changes s q J k), sInf (changes s q J k), ?_, ?_, rfl⟩
  · exact ⟨hne.csSup_mem (changes_finite s q J k), fun x hx => le_csSup (changes_finite s q J k).bddAbove hx⟩
  · exact ⟨hne.csInf_mem (changes_finite s q J k), fun x hx => csInf_le (changes_finite s q J k).bddBelow hx⟩

theorem spread_unique {s : Sec n} {q : Fin n → ℝ} {k : ℕ} {d e : ℝ} (h : Spread s q J k d) (h' : Spread s q J k e) : d = e := by
  obtain ⟨a, b, h1, h2, rfl⟩ := h
  obtain ⟨a', b', h1', h2', rfl⟩ := h'
  rw [h1.unique h1', h2.unique h2']

theorem spread_nonneg {s : Sec n} {q : Fin n → ℝ} {k : ℕ} {d : ℝ} (h : Spread s q J k d) : 0 ≤ d := by
  obtain ⟨a, b, h1, h2, rfl⟩ := h
  linarith [h1.2 h2.1]

theorem seq_succ (s : Sec n) (q : Fin n → ℝ) (J k : ℕ) : seq s q J (k + 1) = s.next q (seq s q J k) := by
  unfold seq; rw [Function.iterate_succ_apply']

/-- Loop variables after `k` passes. -/
structure After (s : Sec n) (q : Fin n → ℝ) (k : ℕ) (x : Iter n J) : Prop where
  P : x.P = seq s q J k
  it : x.it = k
  diff0 : 0 < k → x.diff0 = diff (seq s q J 0) (seq s q J 1)
  err : ∀ j, k = j + 1 → x.err = diff (seq s q J j) (seq s q J (j + 1)) / (diff (seq s q J 0) (seq s q J 1) + 1 / 10 ^ 30)

theorem pass_after {s : Sec n} {q : Fin n → ℝ} {k : ℕ} {x : Iter n J} (h : After s q k x) : After s q (k + 1) (s.pass q x) := by
  have hP : s.next q x.P = seq s q J (k + 1) := by rw [h.P, seq_succ]
  have hd : (if x.it + 1 = 1 then diff x.P (s.next q x.P) else x.diff0) = diff (seq s q J 0) (seq s q J 1) := by
    rw [h.it]
    rcases Nat.eq_zero_or_pos k with rfl | hk
    · rw [if_pos rfl, h.P, seq_succ]
    · rw [if_neg (by omega), h.diff0 hk]
  refine ⟨hP, by show x.it + 1 = k + 1; rw [h.it], fun _ => hd, ?_⟩
  intro j hj
  obtain rfl : k = j := by omega
  show diff x.P (s.next q x.P) / _ = _
  rw [hd, hP, h.P]

theorem iterate_after {s : Sec n} {q : Fin n → ℝ} {eps : ℝ} (c : ℕ) {k : ℕ} {x : Iter n J} (h : After s q k x) :
    ∃ l, k ≤ l ∧ l ≤ k + c ∧ After s q l (s.iterate q eps c x) ∧ (l < k + c → (s.iterate q eps c x).err ≤ eps) ∧
      (∀ i, k ≤ i → i < l → (i = k → eps < x.err) ∧
        ∀ j, i = j + 1 → k < i → eps < diff (seq s q J j) (seq s q J (j + 1)) / (diff (seq s q J 0) (seq s q J 1) + 1 / 10 ^ 30)) := by
  induction c generalizing k x with
  | zero => exact ⟨k, le_rfl, le_rfl, h, fun hl => absurd hl (by omega), fun i h1 h2 => absurd h2 (by omega)⟩
  | succ c ih =>
    unfold Sec.iterate
    split_ifs with he
    · obtain ⟨l, h1, h2, h3, h4, h5⟩ := ih (pass_after h)
      refine ⟨l, by omega, by omega, h3, fun hl => h4 (by omega), fun i hi hil => ⟨fun _ => he, fun j hj hki => ?_⟩⟩
      rcases Nat.lt_or_ge (k + 1) i with hc | hc
      · exact (h5 i (by omega) hil).2 j hj hc
      · obtain rfl : i = k + 1 := by omega
        rw [← (pass_after h).err j hj]
        exact (h5 _ le_rfl hil).1 rfl
    · exact ⟨k, le_rfl, by omega, h, fun _ => not_lt.mp he, fun i h1 h2 => absurd h2 (by omega)⟩

/-! ### Theorems -/

/-- **C70** (the part that holds).  The multipoles returned are those after the returned number `it ≤ it_max` of passes; the passes stop as soon as the spread
of the changes in a pass is at most `eps` times the spread in the first pass (plus `1e-30`), and the returned `eps_max` is the ratio of these spreads.  Missing: the
size of the changes (`stop_fails`). -/
theorem stop_partial (s : Sec n) (q : Fin n → ℝ) (hn : 0 < n) (hJ : 0 < J) (eps : ℝ) (heps : eps < 10 ^ 99) (itMax : ℕ) (hit : 0 < itMax) :
    ∃ it d d0, 0 < it ∧ it ≤ itMax ∧ (s.poles q J eps itMax).it = it ∧ (s.poles q J eps itMax).P = seq s q J it ∧
      Spread s q J 0 d0 ∧ Spread s q J (it - 1) d ∧ (s.poles q J eps itMax).err = d / (d0 + 1 / 10 ^ 30) ∧
      (it < itMax → d ≤ eps * (d0 + 1 / 10 ^ 30)) ∧
      ∀ k e, k + 1 < it → Spread s q J k e → eps * (d0 + 1 / 10 ^ 30) < e := by
  have h0 : After s q 0 (⟨fun _ _ => 0, 0, 0, 10 ^ 99⟩ : Iter n J) :=
    ⟨rfl, rfl, fun h => absurd h (by omega), fun j hj => absurd hj (by omega)⟩
  have hp : s.poles q J eps itMax = s.iterate q eps itMax ⟨fun _ _ => 0, 0, 0, 10 ^ 99⟩ := by unfold Sec.poles; rw [if_pos hJ]
  obtain ⟨l, -, h2, h3, h4, h5⟩ := iterate_after (eps := eps) itMax h0
  rw [← hp] at h3 h4
  have hl : 0 < l := by
    rcases Nat.eq_zero_or_pos l with rfl | hl
    · obtain ⟨c, rfl⟩ : ∃ c, itMax = c + 1 := ⟨itMax - 1, by omega⟩
      have he := h3.it
      rw [hp] at he
      unfold Sec.iterate at he
      rw [if_pos (show (10 : ℝ) ^ 99 > eps from heps)] at he
      obtain ⟨l', h1', -, h3', -⟩ := iterate_after (eps := eps) c (pass_after h0)
      rw [h3'.it] at he
      omega
    · exact hl
  obtain ⟨j, rfl⟩ : ∃ j, l = j + 1 := ⟨l - 1, by omega⟩
  have hs0 := diff_spread s q hn hJ 0
  have hpos : 0 < diff (seq s q J 0) (seq s q J (0 + 1)) + 1 / 10 ^ 30 := by have := spread_nonneg hs0; positivity
  refine ⟨j + 1, diff (seq s q J j) (seq s q J (j + 1)), diff (seq s q J 0) (seq s q J 1), hl, by omega, h3.it, h3.P, hs0, by simpa using diff_spread s q hn hJ j,
    h3.err j rfl, fun hlt => ?_, fun k e hk he => ?_⟩
  · have := h4 (by omega)
    rw [h3.err j rfl, div_le_iff₀ hpos] at this
    exact this
  · have := (h5 (k + 1) (by omega) hk).2 k rfl (by omega)
    rw [lt_div_iff₀ hpos] at this
    rwa [spread_unique he (diff_spread s q hn hJ k)]

/-- Non-vacuity: orders and iteration limits of the documentation. -/
example (q : Fin 2 → ℝ) : ∃ it d d0, 0 < it ∧ it ≤ 100 ∧ (sampleSec.poles q 3 (1 / 10 ^ 5) 100).it = it ∧ Spread sampleSec q 3 0 d0 ∧ Spread sampleSec q 3 (it - 1) d ∧
    (it < 100 → d ≤ 1 / 10 ^ 5 * (d0 + 1 / 10 ^ 30)) := by
  obtain ⟨it, d, d0, h1, h2, h3, -, h4, h5, -, h6, -⟩ := stop_partial sampleSec q (by norm_num) (J := 3) (by norm_num) (1 / 10 ^ 5) (by norm_num) 100 (by norm_num)
  exact ⟨it, d, d0, h1, h2, h3, h4, h5, h6⟩

/-! ### The violation: two pipes placed symmetrically, order 1 -/

/-- Pipes of radius 1 at `±2` with outer surfaces at the fluid temperatures, grout like the ground. -/
def twin : Sec 2 := ⟨fun i => if i = 0 then 2 else -2, fun _ => 1, 4, 1, 1, fun _ => 0⟩

theorem twin_next (P : Fin 2 → Fin 1 → ℂ) (hP : ∀ m, conj (P m 0) = P m 0) (m : Fin 2) :
    twin.next (fun _ => 1) P m 0 = (if m = 0 then 1 else -1) * (twin.pikg / 4) + 1 / 16 * (if m = 0 then P 1 0 else P 0 0) := by
  have hs : twin.sigma = 0 := by simp [Sec.sigma, twin]
  have hc : twin.coeff m (0 : Fin 1) = -1 := by simp [Sec.coeff, Sec.beta, twin]
  have h4 : (2 : ℂ) + 2 = 4 := by norm_num
  have h4' : (-2 : ℂ) - 2 = -4 := by norm_num
  have c4 : conj (4 : ℂ) = 4 := map_ofNat _ 4
  have c2 : conj (2 : ℂ) = 2 := map_ofNat _ 2
  unfold Sec.next Sec.F
  rw [hc, hs]
  fin_cases m
  · simp [twin, Fin.sum_univ_two, Complex.conj_ofReal, hP, h4, map_neg, map_add, map_mul, c2, c4]
    ring
  · simp [twin, Fin.sum_univ_two, Complex.conj_ofReal, hP, h4, h4', map_neg, map_add, map_mul, c2, c4]
    ring

theorem twin_one (m : Fin 2) (k : Fin 1) : seq twin (fun _ => 1) 1 1 m k = ((if m = 0 then 1 else -1) * (twin.pikg / 4) : ℝ) := by
  obtain rfl : k = 0 := Subsingleton.elim _ _
  rw [seq_succ]
  have := twin_next (seq twin (fun _ => 1) 1 0) (by simp [seq]) m
  rw [this]
  fin_cases m <;> simp [seq]

theorem twin_changes : changes twin (fun _ => 1) 1 0 = {twin.pikg / 4} := by
  have hp : 0 < twin.pikg := by unfold Sec.pikg twin; simp [Real.pi_pos]
  ext x
  simp only [changes, Set.mem_range, Set.mem_singleton_iff, Prod.exists, zero_add, twin_one]
  have h0 : ∀ (m : Fin 2) (k : Fin 1), seq twin (fun _ => 1) 1 0 m k = 0 := fun m k => rfl
  simp only [h0, sub_zero]
  have hn : ∀ m : Fin 2, ‖(((if m = 0 then 1 else -1) * (twin.pikg / 4) : ℝ) : ℂ)‖ = twin.pikg / 4 := fun m => by
    rw [Complex.norm_real, Real.norm_eq_abs]
    split_ifs
    · rw [one_mul, abs_of_pos (by positivity)]
    · rw [neg_one_mul, abs_neg, abs_of_pos (by positivity)]
  constructor
  · rintro ⟨m, k, h⟩; rw [← h, hn]
  · rintro rfl; exact ⟨0, 0, hn 0⟩

/-- **C70** (violation).  For two pipes placed symmetrically, equal heat flows and order 1, `multipole` returns after one pass of a hundred with the error `0`
for every tolerance `eps ≥ 0`, although that pass changed the multipoles by as much as the first pass (it is the first pass), and one more pass
changes them by a sixteenth of it. -/
theorem stop_fails (eps : ℝ) (h0 : 0 ≤ eps) (heps : eps < 10 ^ 99) :
    (twin.poles (fun _ => 1) 1 eps 100).it = 1 ∧ (twin.poles (fun _ => 1) 1 eps 100).err = 0 ∧
    ∃ c, 0 < c ∧ LargestChange twin (fun _ => 1) 1 0 c ∧
      ∀ m, ‖twin.next (fun _ => 1) (twin.poles (fun _ => 1) 1 eps 100).P m 0 - (twin.poles (fun _ => 1) 1 eps 100).P m 0‖ = c / 16 := by
  have hp : 0 < twin.pikg := by unfold Sec.pikg twin; simp [Real.pi_pos]
  have hs0 : Spread twin (fun _ => 1) 1 0 0 :=
    ⟨twin.pikg / 4, twin.pikg / 4, by rw [twin_changes]; exact isGreatest_singleton, by rw [twin_changes]; exact isLeast_singleton, by ring⟩
  obtain ⟨it, d, d0, h1, h2, h3, h4, h5, h6, h7, -, h8⟩ := stop_partial twin (fun _ => 1) (by norm_num) (J := 1) (by norm_num) eps heps 100 (by norm_num)
  obtain rfl : d0 = 0 := spread_unique h5 hs0
  have hit : it = 1 := by
    by_contra hne
    have := h8 0 0 (by omega) hs0
    nlinarith
  subst hit
  obtain rfl : d = 0 := spread_unique h6 hs0
  refine ⟨h3, by rw [h7]; simp, twin.pikg / 4, by positivity, ?_, ?_⟩
  · unfold LargestChange; rw [twin_changes]; exact isGreatest_singleton
  · intro m
    rw [h4, twin_next _ (fun m => by rw [twin_one, Complex.conj_ofReal]) m, twin_one, twin_one, twin_one]
    have : ((if m = 0 then 1 else -1) * (twin.pikg / 4) + 1 / 16 * (if m = 0 then (((if (1 : Fin 2) = 0 then 1 else -1) * (twin.pikg / 4) : ℝ) : ℂ) else
        (((if (0 : Fin 2) = 0 then 1 else -1) * (twin.pikg / 4) : ℝ) : ℂ)) - (((if m = 0 then 1 else -1) * (twin.pikg / 4) : ℝ) : ℂ) : ℂ)
        = (((if m = 0 then -1 else 1) * (twin.pikg / 4 / 16) : ℝ) : ℂ) := by
      fin_cases m <;> simp <;> ring
    rw [this, Complex.norm_real, Real.norm_eq_abs]
    split_ifs
    · rw [neg_one_mul, abs_neg, abs_of_pos (by positivity)]
    · rw [one_mul, abs_of_pos (by positivity)]

end Verif.Pipe.Pole
