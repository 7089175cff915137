import Verif.LoadAgg.RoundGrid

/-!
# Rounding errors of the Claesson-Javed aggregation

`fl` is a rounding with unit roundoff `u` and underflow error `η` (`Num/FloatModel`).  Every operation of `time_ClaessonJaved`, of the constructor, of `initialize`, `next_time_step` and
`temporal_superposition` is followed by `fl`; sums may be evaluated in any order.  The theorems compare the results with those of exact arithmetic (`CJModel`).
-/

noncomputable section

namespace Verif.LoadAgg.Rnd

open Num CJ Finset

variable {u η : ℝ} {fl : ℝ → ℝ} {S : Type*} {n : ℕ} {dt : ℝ} {c : ℕ}

/-! ### The time grid -/

theorem iterate_time (k : ℕ) : ((cjBody fl dt c)^[k] Util.cjInit).time.length = k := by
  induction k with
  | zero => rfl
  | succ k ih =>
    rw [Function.iterate_succ_apply']
    simp [cjBody, ih]

theorem loop_iterate {σ : Type*} {cond : σ → Prop} {body : σ → σ} {s s' : σ} (h : Loop cond body s s') : ∃ m, s' = body^[m] s ∧ ∀ k < m, cond (body^[k] s) := by
  induction h with
  | done h => exact ⟨0, rfl, by simp⟩
  | step h _ ih =>
    obtain ⟨m, e, hm⟩ := ih
    refine ⟨m + 1, by rw [e, Function.iterate_succ_apply], fun k hk => ?_⟩
    cases k with
    | zero => exact h
    | succ k => rw [Function.iterate_succ_apply]; exact hm k (by omega)

theorem time_eq (h : Rounding u η fl) (hf : Fine u η dt c) {tmax : ℝ} {time : List ℝ} (ht : TimeClaessonJaved fl dt tmax c time) (hu : 8 * (time.length + 1) * u ≤ 1) :
    (∀ (k : ℕ) (hk : k < time.length), time[k] = compTime fl dt c (k + 1)) ∧ tmax ≤ compTime fl dt c time.length ∧ ∀ k < time.length, compTime fl dt c k < tmax := by
  obtain ⟨s, hl, rfl⟩ := ht
  obtain ⟨m, e, hm⟩ := loop_iterate hl
  have hlen : s.time.length = m := by rw [e]; exact iterate_time m
  rw [hlen] at hu
  have hs := body_iterate h hf m hu
  rw [← e] at hs
  have hend := hl.not_cond
  refine ⟨fun k hk => by simp [hs], ?_, fun k hk => ?_⟩
  · unfold Util.cjCond at hend
    rw [hs] at hend
    rw [hlen]
    exact not_lt.mp hend
  · rw [hlen] at hk
    have := hm k hk
    rw [body_iterate h hf k (by
      have : (k : ℝ) + 1 ≤ m + 1 := by exact_mod_cast Nat.succ_le_succ hk.le
      nlinarith [h.u_nonneg])] at this
    exact this

/-- **C121.** The time grid is computed: the loop ends after at most `M` cells. -/
theorem grid_terminates (h : Rounding u η fl) (hf : Fine u η dt c) (tmax : ℝ) (M : ℕ) (hu : 8 * (M + 1) * u ≤ 1) (hM : 2 * tmax ≤ dt * ∑ m ∈ range M, 2 ^ (m / c)) :
    ∃ time, TimeClaessonJaved fl dt tmax c time ∧ time.length ≤ M := by
  have hX := exactTime_nonneg (c := c) hf.dt_pos M
  have he := compTime_error h hf M hu
  have : |compTime fl dt c M - exactTime dt c M| ≤ 1 / 2 * exactTime dt c M := he.trans (mul_le_mul_of_nonneg_right (by linarith) hX)
  have hT := (abs_le.mp this).1
  change 2 * tmax ≤ exactTime dt c M at hM
  obtain ⟨m, hm, -, hl⟩ := Loop.exists_of_iterate (cond := Util.cjCond tmax) (body := cjBody fl dt c) Util.cjInit M (by
    rw [body_iterate h hf M hu]
    unfold Util.cjCond
    simp only [not_lt]
    linarith)
  exact ⟨_, ⟨_, hl, rfl⟩, by rw [iterate_time]; exact hm⟩

/-- **C121.** The computed times are those of the exact grid up to a small relative error, they increase strictly, the last one reaches the maximum time and the others do not. -/
theorem grid_error (h : Rounding u η fl) (hf : Fine u η dt c) {tmax : ℝ} {time : List ℝ} (ht : TimeClaessonJaved fl dt tmax c time) (hu : 8 * (time.length + 1) * u ≤ 1) :
    (∀ (k : ℕ) (hk : k < time.length), |time[k] - dt * ∑ m ∈ range (k + 1), 2 ^ (m / c)| ≤ 4 * (k + 2) * u * (dt * ∑ m ∈ range (k + 1), 2 ^ (m / c))) ∧
    time.Pairwise (· < ·) ∧ (∀ (k : ℕ) (hk : k + 1 < time.length), time[k] < tmax) ∧ (∀ hk : time ≠ [], tmax ≤ time.getLast hk) := by
  obtain ⟨h1, h2, h3⟩ := time_eq h hf ht hu
  have hsm : ∀ k < time.length, 8 * ((k : ℝ) + 2) * u ≤ 1 := fun k hk => by
    have : (k : ℝ) + 2 ≤ time.length + 1 := by exact_mod_cast (by omega : k + 2 ≤ time.length + 1)
    nlinarith [h.u_nonneg]
  refine ⟨fun k hk => ?_, ?_, fun k hk => ?_, fun hk => ?_⟩
  · rw [h1]
    have := compTime_error h hf (k + 1) (by push_cast; linarith [hsm k hk])
    push_cast at this
    rw [show (k : ℝ) + 2 = k + 1 + 1 by ring]
    exact this
  · rw [List.pairwise_iff_getElem]
    have hstep : ∀ k < time.length, compTime fl dt c k < compTime fl dt c (k + 1) := fun k hk => by
      have d := (abs_le.mp (diff_error h hf k (hsm k hk))).1
      have hs := hf.small
      have hp : 0 < (2 : ℝ) ^ (k / c) * dt := mul_pos (by positivity) hf.dt_pos
      nlinarith
    intro i j hi hj hij
    rw [h1, h1]
    obtain ⟨d, rfl⟩ := Nat.exists_eq_add_of_lt hij
    clear hij
    induction d with
    | zero => exact hstep (i + 0 + 1) hj
    | succ d ih => exact (ih (by omega)).trans (hstep (i + (d + 1) + 1) hj)
  · rw [h1]
    exact h3 (k + 1) hk
  · have hp : 0 < time.length := List.length_pos_iff.mpr hk
    rw [List.getLast_eq_getElem, h1, Nat.sub_add_cancel hp]
    exact h2

/-! ### Cells and temperatures -/

theorem exact_widths (hdt : 0 < dt) : CJ.widths dt (fun k : Fin (n + 1) => dt * ∑ m ∈ range (k.val + 1), 2 ^ (m / c)) = fun k => 2 ^ (k.val / c) := by
  funext k
  unfold CJ.widths
  induction k using Fin.cases with
  | zero => simp
  | succ j =>
    rw [dif_neg (Fin.succ_ne_zero j)]
    simp only [Fin.pred_succ, Fin.val_succ, Fin.val_castSucc]
    rw [sum_range_succ _ (j.val + 1), ← mul_sub, add_sub_cancel_left, mul_div_cancel_left₀ _ hdt.ne']

theorem widths_close (h : Rounding u η fl) (hf : Fine u η dt c) {tmax : ℝ} {time : List ℝ} (ht : TimeClaessonJaved fl dt tmax c time) (hn : time.length = n + 1) (hu : 8 * (n + 2) * u ≤ 1) :
    Close fl (fun k : Fin (n + 1) => 2 ^ (k.val / c)) (widths fl dt fun k : Fin (n + 1) => time[k.val]'(by omega)) (23 * c * u) := by
  obtain ⟨h1, -, -⟩ := time_eq h hf ht (by rw [hn]; push_cast; linarith)
  have hw : ∀ j : Fin n, |widths fl dt (fun k : Fin (n + 1) => time[k.val]'(by omega)) j.succ - 2 ^ ((j.val + 1) / c)| ≤ 18 * c * u * 2 ^ ((j.val + 1) / c) := fun j => by
    unfold widths
    rw [dif_neg (Fin.succ_ne_zero j)]
    simp only [Fin.pred_succ, Fin.val_succ, Fin.val_castSucc, h1]
    refine width_error h hf (j.val + 1) ?_
    have : (j.val : ℝ) + 1 ≤ n := by exact_mod_cast j.isLt
    push_cast
    nlinarith [h.u_nonneg]
  have hp : ∀ k : ℕ, (1 : ℝ) ≤ 2 ^ (k / c) := fun k => one_le_pow₀ (by norm_num)
  refine ⟨by simp, by simp [widths], fun k => hp k, fun j => ?_, fun j => ?_⟩
  · exact (entries_error h hf (hp _) (hw j)).1
  · exact (entries_error h hf (hp _) (hw j)).2

theorem pow_le {x : ℝ} (hx : 0 ≤ x) (N : ℕ) (hN : N * x ≤ 1 / 2) : (1 + x) ^ N ≤ 1 + 2 * (N * x) := by
  have key : (1 + x) ^ N * (1 - N * x) ≤ 1 := by
    clear hN
    induction N with
    | zero => simp
    | succ N ih =>
      refine le_trans ?_ ih
      rw [pow_succ, mul_assoc]
      gcongr
      push_cast
      nlinarith [sq_nonneg x, (Nat.cast_nonneg N : (0 : ℝ) ≤ N)]
  have h0 : 0 ≤ N * x := by positivity
  have : 1 ≤ (1 + 2 * (N * x)) * (1 - N * x) := by nlinarith
  by_contra hcon
  push Not at hcon
  have : (1 + 2 * (N * x)) * (1 - N * x) < (1 + x) ^ N * (1 - N * x) := mul_lt_mul_of_pos_right hcon (by linarith)
  linarith

/-- Bound of the error of the cells after `N` steps with loads of at most `Q`. -/
def cellBound (u η Q : ℝ) (c N : ℕ) : ℝ := 100 * c * u * N * Q + 8 * N * η

theorem cellError_le (h : Rounding u η fl) (hf : Fine u η dt c) {N : ℕ} (hN : 100 * c * u * N ≤ 1) {Q : ℝ} (hQ : 0 ≤ Q) : cellError u η (23 * c * u) Q N ≤ cellBound u η Q c N := by
  have hu := h.u_nonneg
  have hη := h.η_nonneg
  have hc : (1 : ℝ) ≤ c := by exact_mod_cast hf.c_pos
  have hs := hf.small
  have huc : u ≤ c * u := by nlinarith
  have hst : stepError u (23 * c * u) ≤ 50 * c * u := by
    unfold stepError
    have : (1 + u) ^ 2 - 1 ≤ 3 * u := by nlinarith
    have : ((1 + u) ^ 2 - 1) * (1 + 2 * (23 * c * u)) ≤ 3 * u * (4 / 3) := mul_le_mul this (by linarith) (by positivity) (by linarith)
    linarith
  have hst0 := stepError_nonneg hu (δ := 23 * c * u) (by positivity)
  have hpow : (1 + stepError u (23 * c * u)) ^ N ≤ 1 + 2 * (N * (50 * c * u)) :=
    (pow_le_pow_left₀ (by linarith) (by linarith) N).trans (pow_le (by positivity) N (by linarith))
  unfold cellError cellBound
  have p1 : ((1 + stepError u (23 * c * u)) ^ N - 1) * Q ≤ 100 * c * u * N * Q := mul_le_mul_of_nonneg_right (by linarith) hQ
  have p2 : N * (1 + stepError u (23 * c * u)) ^ N * (3 * (1 + u) ^ 2 * η) ≤ N * 2 * (4 * η) := by
    have q1 : (1 + stepError u (23 * c * u)) ^ N ≤ 2 := by linarith
    have q2 : 3 * (1 + u) ^ 2 ≤ 4 := by nlinarith
    have : 0 ≤ (1 + stepError u (23 * c * u)) ^ N := by positivity
    gcongr
  linarith

/-- **C121.** Every cell of the object differs from its exact content by at most a multiple of the number of steps, for every sequence of calls. -/
theorem cells_error (h : Rounding u η fl) (hf : Fine u η dt c) {tmax : ℝ} {time : List ℝ} (ht : TimeClaessonJaved fl dt tmax c time) (hn : time.length = n + 1) (hu : 8 * (n + 2) * u ≤ 1)
    {Q : ℝ} (hQ : 0 ≤ Q) {ops : List (Op ℝ S)} (hops : ∀ l, Op.set l ∈ ops → ∀ s, |l s| ≤ Q) (hN : 100 * c * u * steps ops ≤ 1)
    {Z : Cells ℝ S n} (hZ : Run fl (widths fl dt fun k : Fin (n + 1) => time[k.val]'(by omega)) ops Z) (s : S) (k : Fin (n + 1)) :
    |Z s k - CJ.run (CJ.widths dt fun k : Fin (n + 1) => dt * ∑ m ∈ range (k.val + 1), 2 ^ (m / c)) ops s k| ≤ cellBound u η Q c (steps ops) := by
  have hu0 := h.u_nonneg
  have hc : (1 : ℝ) ≤ c := by exact_mod_cast hf.c_pos
  rw [exact_widths hf.dt_pos]
  exact (run_error h (by nlinarith [hf.small]) (by positivity) (widths_close h hf ht hn hu) hQ hZ hops s k).trans (cellError_le h hf hN hQ)

variable [Fintype S]

/-- **C121.** The temperature returned by `temporal_superposition` differs from the value of exact arithmetic by a small multiple of the sum of the absolute increments of the thermal
response factors times the largest load. -/
theorem aggregation_error (h : Rounding u η fl) (hf : Fine u η dt c) {tmax : ℝ} {time : List ℝ} (ht : TimeClaessonJaved fl dt tmax c time) (hn : time.length = n + 1)
    {M : ℕ} (hM : Fintype.card S * (n + 1) = M) (hu : 16 * M * u ≤ 1) {Q : ℝ} {ops : List (Op ℝ S)} (hops : ∀ l, Op.set l ∈ ops → ∀ s, |l s| ≤ Q) (hQ : 0 ≤ Q)
    (hN : 100 * c * u * steps ops ≤ 1) {Z : Cells ℝ S n} (hZ : Run fl (widths fl dt fun k : Fin (n + 1) => time[k.val]'(by omega)) ops Z) {g : S → S → Fin (n + 1) → ℝ} {i : S} {y G : ℝ}
    (hy : Superposed fl (increments fl g) Z i y) (hG : ∑ j, ∑ k, |CJ.increments g i j k| = G) :
    |y - temporalSuperposition (CJ.increments g) (CJ.run (CJ.widths dt fun k : Fin (n + 1) => dt * ∑ m ∈ range (k.val + 1), 2 ^ (m / c)) ops) i|
      ≤ G * cellBound u η Q c (steps ops) + (4 * M * u * G + 2 * M * η) * (Q + cellBound u η Q c (steps ops)) + 4 * M * η := by
  have hu0 := h.u_nonneg
  have hη := h.η_nonneg
  have hcard : 1 ≤ Fintype.card S := Fintype.card_pos_iff.mpr ⟨i⟩
  have hM1 : n + 1 ≤ M := by rw [← hM]; nlinarith
  have hM2 : (n : ℝ) + 1 ≤ M := by exact_mod_cast hM1
  have hM3 : (1 : ℝ) ≤ M := by linarith [(Nat.cast_nonneg n : (0 : ℝ) ≤ n)]
  have hn2 : 8 * ((n : ℝ) + 2) * u ≤ 1 := by nlinarith [(Nat.cast_nonneg n : (0 : ℝ) ≤ n)]
  have hcell := cells_error h hf ht hn hn2 hQ hops hN hZ
  obtain ⟨E, hE⟩ : ∃ E, E = cellBound u η Q c (steps ops) := ⟨_, rfl⟩
  rw [← hE] at hcell ⊢
  have hE0 : 0 ≤ E := by rw [hE]; unfold cellBound; positivity
  have hq : ∀ s k, |CJ.run (CJ.widths dt fun k : Fin (n + 1) => dt * ∑ m ∈ range (k.val + 1), 2 ^ (m / c)) ops s k| ≤ Q := fun s k => by
    rw [abs_le]
    refine cj_cells_bounded _ (fun k => ?_) (-Q) Q (by linarith) hQ ops s (fun l hl => abs_le.mp (hops l hl s)) k
    rw [exact_widths hf.dt_pos]
    exact one_le_pow₀ (by norm_num)
  refine (superposition_error h hq hcell hy hG hM).trans ?_
  have hG0 : 0 ≤ G := by rw [← hG]; exact sum_nonneg fun j _ => sum_nonneg fun k _ => abs_nonneg _
  have hpow := pow_le hu0 M (by linarith)
  have hu1 : u ≤ 1 / 16 := by nlinarith
  have hp1 : 0 ≤ (1 + u) ^ M - 1 := sub_nonneg.mpr (one_le_pow₀ (by linarith))
  have a1 : ((1 + u) ^ M - 1) * (((1 + u) * G + M * η) * (Q + E)) ≤ 2 * (M * u) * (((1 + u) * G + M * η) * (Q + E)) :=
    mul_le_mul_of_nonneg_right (by linarith) (by positivity)
  have a2 : (2 * M - 1 : ℕ) * (1 + u) ^ M * η ≤ 2 * M * 2 * η := by
    have : ((2 * M - 1 : ℕ) : ℝ) ≤ 2 * M := by exact_mod_cast Nat.sub_le _ _
    have : (1 + u) ^ M ≤ 2 := by linarith
    gcongr
  have a3 : 2 * (M * u) * ((1 + u) * G + M * η) + (u * G + M * η) ≤ 4 * M * u * G + 2 * M * η := by
    have b1 : 2 * (M * u) * ((1 + u) * G) + u * G ≤ 4 * M * u * G := by
      have : 2 * (M * u) * (1 + u) + u ≤ 4 * M * u := by nlinarith
      nlinarith
    have b2 : 2 * (M * u) * (M * η) ≤ 1 * (M * η) := mul_le_mul_of_nonneg_right (by linarith) (by positivity)
    linarith
  have a4 := mul_le_mul_of_nonneg_right a3 (by linarith : 0 ≤ Q + E)
  linarith

/-! ### Executions exist -/

theorem eval_exists (fl : ℝ → ℝ) (l : List (ℝ × ℝ)) : ∃ a, Eval fl l a := by
  induction l with
  | nil => exact ⟨0, .nil⟩
  | cons p l ih =>
    obtain ⟨a, ha⟩ := ih
    exact ⟨_, .fma p.1 p.2 ha⟩

omit [Fintype S] in
theorem run_exists (fl : ℝ → ℝ) (w : Fin (n + 1) → ℝ) (ops : List (Op ℝ S)) : ∃ Z, Run fl w ops Z := by
  induction ops using List.reverseRecOn with
  | nil => exact ⟨_, .init⟩
  | append_singleton ops o ih =>
    obtain ⟨Z, hZ⟩ := ih
    cases o with
    | next =>
      choose q' hq' using fun s j => eval_exists fl (List.ofFn fun i => (Z s i, shiftMatrix fl w i j))
      exact ⟨q', .next hZ hq'⟩
    | set l => exact ⟨_, .set l hZ⟩

/-! ### Double precision -/

theorem eta_le {b : ℝ} (hb : 1 ≤ b) : 2 * (2 : ℝ) ^ (-1075 : ℤ) ≤ 2 ^ (-53 : ℤ) * b := by
  have h1 : (2 : ℝ) ^ (-1075 : ℤ) ≤ 2 ^ (-54 : ℤ) := zpow_le_zpow_right₀ (by norm_num) (by norm_num)
  have h2 : 2 * (2 : ℝ) ^ (-54 : ℤ) = 2 ^ (-53 : ℤ) := by norm_num
  have h3 : (0 : ℝ) < 2 ^ (-53 : ℤ) := by positivity
  nlinarith

theorem binary64_fine (hdt : 1 ≤ dt) (hc : 1 ≤ c) (hc' : c ≤ 1000) : Fine (2 ^ (-53 : ℤ)) (2 ^ (-1075 : ℤ)) dt c := by
  refine ⟨by linarith, hc, ?_, eta_le hdt, by simpa using eta_le le_rfl⟩
  have : (c : ℝ) ≤ 1000 := by exact_mod_cast hc'
  have h : (2 : ℝ) ^ (-53 : ℤ) ≤ 1 / 1000000 := by norm_num
  have h3 : (0 : ℝ) ≤ 2 ^ (-53 : ℤ) := by positivity
  have := mul_le_mul this h h3 (by norm_num)
  generalize (2 : ℝ) ^ (-53 : ℤ) = v at *
  linarith

/-- **C121.** In double precision, with time steps of at least one second, five cells per level, at most one million steps and at most one million cells, the temperature is off by at most
`10⁻⁷` of the sum of the absolute increments times the largest load (and an underflow error of `10⁻⁶⁰`). -/
theorem aggregation_binary64 (hdt : 1 ≤ dt) {tmax : ℝ} {time : List ℝ} (ht : TimeClaessonJaved binary64 dt tmax 5 time) (hn : time.length = n + 1)
    (hM : Fintype.card S * (n + 1) ≤ 1000000) {Q : ℝ} {ops : List (Op ℝ S)} (hops : ∀ l, Op.set l ∈ ops → ∀ s, |l s| ≤ Q) (hQ : 0 ≤ Q)
    (hN : steps ops ≤ 1000000) {Z : Cells ℝ S n} (hZ : Run binary64 (widths binary64 dt fun k : Fin (n + 1) => time[k.val]'(by omega)) ops Z) {g : S → S → Fin (n + 1) → ℝ} {i : S} {y G : ℝ}
    (hy : Superposed binary64 (increments binary64 g) Z i y) (hG : ∑ j, ∑ k, |CJ.increments g i j k| = G) :
    |y - temporalSuperposition (CJ.increments g) (CJ.run (CJ.widths dt fun k : Fin (n + 1) => dt * ∑ m ∈ range (k.val + 1), 2 ^ (m / 5)) ops) i| ≤ 1 / 10 ^ 7 * (G * Q) + 1 / 10 ^ 60 * (1 + G + Q) := by
  have hu : (2 : ℝ) ^ (-53 : ℤ) ≤ 112 / 10 ^ 18 := by norm_num
  have hu0 : (0 : ℝ) < 2 ^ (-53 : ℤ) := by positivity
  have hη : (2 : ℝ) ^ (-1075 : ℤ) ≤ 1 / 10 ^ 69 := (zpow_le_zpow_right₀ (by norm_num) (by norm_num : (-1075 : ℤ) ≤ -230)).trans (by norm_num)
  have hη0 : (0 : ℝ) < 2 ^ (-1075 : ℤ) := by positivity
  have hM' : ((Fintype.card S * (n + 1) : ℕ) : ℝ) ≤ 1000000 := by exact_mod_cast hM
  have hN' : (steps ops : ℝ) ≤ 1000000 := by exact_mod_cast hN
  have hN0 : (0 : ℝ) ≤ steps ops := by positivity
  obtain ⟨M, hMe⟩ : ∃ M, Fintype.card S * (n + 1) = M := ⟨_, rfl⟩
  rw [hMe] at hM'
  have hM0 : (0 : ℝ) ≤ M := by positivity
  refine (aggregation_error binary64_rounding (binary64_fine hdt (by norm_num) (by norm_num)) ht hn hMe ?_ hops hQ ?_ hZ hy hG).trans ?_
  · have := mul_le_mul hM' hu hu0.le (by norm_num)
    generalize (2 : ℝ) ^ (-53 : ℤ) = v at *
    linarith
  · have := mul_le_mul hu hN' hN0 (by norm_num)
    generalize (2 : ℝ) ^ (-53 : ℤ) = v at *
    push_cast
    linarith
  have hG0 : 0 ≤ G := by rw [← hG]; exact sum_nonneg fun j _ => sum_nonneg fun k _ => abs_nonneg _
  unfold cellBound
  generalize (steps ops : ℝ) = N at *
  generalize (M : ℝ) = m at *
  generalize (2 : ℝ) ^ (-53 : ℤ) = v at *
  generalize (2 : ℝ) ^ (-1075 : ℤ) = e at *
  push_cast
  have b1 : v * N ≤ 112 / 10 ^ 18 * 1000000 := mul_le_mul hu hN' hN0 (by positivity)
  have b2 : N * e ≤ 1000000 * (1 / 10 ^ 69) := mul_le_mul hN' hη hη0.le (by positivity)
  have b3 : m * v ≤ 1000000 * (112 / 10 ^ 18) := mul_le_mul hM' hu hu0.le (by positivity)
  have b4 : m * e ≤ 1000000 * (1 / 10 ^ 69) := mul_le_mul hM' hη hη0.le (by positivity)
  have c1 : 100 * 5 * v * N * Q + 8 * N * e ≤ 56 / 10 ^ 9 * Q + 8 / 10 ^ 63 := by
    have := mul_le_mul_of_nonneg_right b1 hQ
    nlinarith
  have c0 : 0 ≤ 100 * 5 * v * N * Q + 8 * N * e := by positivity
  generalize 100 * 5 * v * N * Q + 8 * N * e = E at *
  have c2 : 4 * m * v * G + 2 * m * e ≤ 448 / 10 ^ 12 * G + 2 / 10 ^ 63 := by
    have := mul_le_mul_of_nonneg_right b3 hG0
    linarith
  have c3 : Q + E ≤ 2 * Q + 8 / 10 ^ 63 := by linarith
  have c4 : (4 * m * v * G + 2 * m * e) * (Q + E) ≤ (448 / 10 ^ 12 * G + 2 / 10 ^ 63) * (2 * Q + 8 / 10 ^ 63) := mul_le_mul c2 c3 (by linarith) (by positivity)
  have c5 := mul_le_mul_of_nonneg_left c1 hG0
  have c6 : 0 ≤ G * Q := by positivity
  have c7 : (448 / 10 ^ 12 * G + 2 / 10 ^ 63) * (2 * Q + 8 / 10 ^ 63) ≤ 1 / 10 ^ 9 * (G * Q) + 1 / 10 ^ 62 * (1 + G + Q) := by nlinarith
  nlinarith

/-- Ten years of hours for two boreholes with loads of at most `50 W/m` in double precision: the object exists and the temperatures are off by less than `10⁻⁷·(G·50) + …`. -/
example (g : Fin 2 → Fin 2 → ℕ → ℝ) (l : ℕ → Fin 2 → ℝ) (hl : ∀ t s, |l t s| ≤ 50) :
    ∃ (n : ℕ) (time : List ℝ) (hn : time.length = n + 1), TimeClaessonJaved binary64 3600 (87600 * 3600) 5 time ∧ time.length ≤ 200000 ∧
      ∀ ops, ops = ((List.range 87600).flatMap fun t => [Op.next, Op.set (l t)]) →
      ∃ (Z : Cells ℝ (Fin 2) n) (y : ℝ), Run binary64 (widths binary64 3600 fun k : Fin (n + 1) => time[k.val]'(by omega)) ops Z ∧
        Superposed binary64 (increments binary64 fun i j (k : Fin (n + 1)) => g i j k) Z 0 y ∧
        |y - temporalSuperposition (CJ.increments fun i j (k : Fin (n + 1)) => g i j k)
            (CJ.run (CJ.widths 3600 fun k : Fin (n + 1) => 3600 * ∑ m ∈ range (k.val + 1), 2 ^ (m / 5)) ops) 0|
          ≤ 1 / 10 ^ 7 * ((∑ j, ∑ k, |CJ.increments (fun i j (k : Fin (n + 1)) => g i j k) 0 j k|) * 50)
            + 1 / 10 ^ 60 * (1 + (∑ j, ∑ k, |CJ.increments (fun i j (k : Fin (n + 1)) => g i j k) 0 j k|) + 50) := by
  have hf : Fine (2 ^ (-53 : ℤ)) (2 ^ (-1075 : ℤ)) 3600 5 := binary64_fine (by norm_num) (by norm_num) (by norm_num)
  obtain ⟨time, ht, hlen⟩ := grid_terminates binary64_rounding hf (87600 * 3600) 175200 (by norm_num) (by
    have := exactTime_ge (c := 5) hf.dt_pos 175200
    unfold exactTime at this
    push_cast at this
    linarith)
  have hne : time.length ≠ 0 := by
    intro h0
    have := (time_eq binary64_rounding hf ht (by rw [h0]; norm_num)).2.1
    rw [h0] at this
    unfold compTime at this
    norm_num at this
  obtain ⟨n, hn⟩ := Nat.exists_eq_succ_of_ne_zero hne
  refine ⟨n, time, hn, ht, by omega, fun ops hops => ?_⟩
  obtain ⟨Z, hZ⟩ := run_exists binary64 (widths binary64 3600 fun k : Fin (n + 1) => time[k.val]'(by omega)) ops
  obtain ⟨y, hy⟩ := eval_exists binary64
    ((Finset.univ : Finset (Fin 2 × Fin (n + 1))).toList.map fun p => (increments binary64 (fun i j (k : Fin (n + 1)) => g i j k) 0 p.1 p.2, Z p.1 p.2))
  refine ⟨Z, y, hZ, hy, aggregation_binary64 (by norm_num) ht hn (by simp; omega) (fun o ho s => ?_) (by norm_num) ?_ hZ hy rfl⟩
  · rw [hops] at ho
    simp only [List.mem_flatMap, List.mem_cons, Op.set.injEq, reduceCtorEq, List.not_mem_nil, or_false, false_or] at ho
    obtain ⟨t, -, rfl⟩ := ho
    exact hl t s
  · have key : ∀ L : List ℕ, steps (L.flatMap fun t => [Op.next, Op.set (l t)]) ≤ L.length := by
      intro L
      induction L with
      | nil => simp [steps]
      | cons a L ih =>
        rw [List.flatMap_cons, steps_append, steps_pair, List.length_cons]
        omega
    rw [hops]
    exact (key _).trans (by simp)

end Verif.LoadAgg.Rnd
