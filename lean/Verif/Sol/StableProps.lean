import Verif.Sol.SolveProps
import Verif.Gf.TempLemmas
import Mathlib.RingTheory.PowerSeries.Basic

/-!
# Property C135: errors of the response factors and the g-function with a uniform temperature

`ubwt` (`SolveModel.lean`) with two sets of response factors: `F`, with reciprocity, and `F'`, for example the same with the errors of an approximation or of a numerical
integration.  The difference of the first values is an explicit bilinear form in the errors of the response factors; on a uniform time grid the same holds for the sums of the values up to any
time.
-/

noncomputable section

namespace Verif.Sol

open Finset

variable {n : ℕ}

/-- Specification: reciprocity. -/
def Reciprocal (H : Fin n → ℝ) (F : Fin n → Fin n → ℝ) : Prop := ∀ i j, H i * F i j = H j * F j i

/-- Two sets of rates of mean one that give uniform temperatures, with two sets of response factors. -/
theorem bilinear {H Q Q' : Fin n → ℝ} {F F' : Fin n → Fin n → ℝ} (hsym : Reciprocal H F) {T T' : ℝ} (hT : ∀ i, T = ∑ j, F i j * Q j) (hT' : ∀ i, T' = ∑ j, F' i j * Q' j)
    (hQ : MeanOne H Q) (hQ' : MeanOne H Q') : (T' - T) * ∑ i, H i = ∑ i, ∑ j, H i * Q i * (F' i j - F i j) * Q' j := by
  have h1 : T' * ∑ i, H i = ∑ i, ∑ j, H i * Q i * F' i j * Q' j := by
    rw [← hQ, mul_sum]
    refine sum_congr rfl fun i _ => ?_
    rw [hT' i, sum_mul]
    exact sum_congr rfl fun j _ => by ring
  have h2 : T * ∑ i, H i = ∑ i, ∑ j, H i * Q i * F i j * Q' j := by
    rw [← hQ', mul_sum, sum_comm]
    refine sum_congr rfl fun j _ => ?_
    rw [hT j, sum_mul]
    exact sum_congr rfl fun i _ => by linear_combination -Q i * Q' j * hsym i j
  rw [sub_mul, h1, h2, ← sum_sub_distrib]
  refine sum_congr rfl fun i _ => ?_
  rw [← sum_sub_distrib]
  exact sum_congr rfl fun j _ => by ring

/-- Errors of at most the fraction `ε` of the response factors, and rates that are not negative. -/
theorem bilinear_relative {H Q Q' : Fin n → ℝ} {F F' : Fin n → Fin n → ℝ} (hsym : Reciprocal H F) {T T' : ℝ} (hT : ∀ i, T = ∑ j, F i j * Q j) (hT' : ∀ i, T' = ∑ j, F' i j * Q' j)
    (hQ : MeanOne H Q) (hQ' : MeanOne H Q') (hn : 0 < n) (hH : ∀ i, 0 < H i) (p : ∀ i, 0 ≤ Q i) (p' : ∀ i, 0 ≤ Q' i) {ε : ℝ} (he : ∀ i j, |F' i j - F i j| ≤ ε * F i j) :
    |T' - T| ≤ ε * T := by
  have hW : 0 < ∑ i, H i := sum_pos (fun i _ => hH i) ⟨⟨0, hn⟩, mem_univ _⟩
  have h1 := bilinear hsym hT hT' hQ hQ'
  have h2 : T * ∑ i, H i = ∑ i, ∑ j, H i * Q i * F i j * Q' j := by
    have := bilinear (F' := fun _ _ => 0) hsym (T' := 0) hT (fun i => by simp) hQ hQ'
    rw [zero_sub, neg_mul] at this
    rw [← neg_inj, this, ← sum_neg_distrib]
    refine sum_congr rfl fun i _ => ?_
    rw [← sum_neg_distrib]
    exact sum_congr rfl fun j _ => by ring
  have h3 : |T' - T| * ∑ i, H i ≤ ε * (T * ∑ i, H i) := by
    rw [← abs_of_pos hW, ← abs_mul, abs_of_pos hW, h1, h2, mul_sum]
    refine (abs_sum_le_sum_abs _ _).trans (sum_le_sum fun i _ => ?_)
    rw [mul_sum]
    refine (abs_sum_le_sum_abs _ _).trans (sum_le_sum fun j _ => ?_)
    rw [abs_mul, abs_mul, abs_mul, abs_of_pos (hH i), abs_of_nonneg (p i), abs_of_nonneg (p' j)]
    have := mul_le_mul_of_nonneg_left (he i j) (mul_nonneg (mul_nonneg (hH i).le (p i)) (p' j))
    linarith
  rw [← mul_assoc] at h3
  exact le_of_mul_le_mul_right h3 hW

/-! ### The solver: first value -/

/-- The first value, and those under the threshold, come from rates that give a uniform temperature. -/
theorem ubwt_first_value {H : Fin n → ℝ} {F : Fin n → Fin n → ℝ → ℝ} {resp : List ℝ → Fin n → Fin n → List ℝ} (hF : Sampled F resp) {time : List ℝ} {thr : ℝ}
    (hpos : ∀ t ∈ time, 0 < t) (hs : time.Pairwise (· < ·)) (hthr : 0 < thr) {g : List ℝ} {Qs : List (Fin n → ℝ)} (hout : ubwt H resp time thr = some (g, Qs))
    {k : ℕ} {t : ℝ} (hk : time[k]? = some t) (hkt : k = 0 ∨ t ≤ thr) :
    ∃ (T : ℝ) (Q : Fin n → ℝ), g[k]? = some (if t ≤ thr then T * t / thr else T) ∧ Qs[k]? = some (fun i => if t ≤ thr then 1 + (Q i - 1) * t / thr else Q i) ∧
      (∀ i, T = ∑ j, F i j (if t ≤ thr then thr else t) * Q j) ∧ MeanOne H Q := by
  have hsle := hs.imp fun {a b : ℝ} (h : a < b) => h.le
  obtain ⟨-, -, -, m4⟩ := ubwt_mean_one hout
  have hi := Gf.timeLong_increasing hpos hs hthr
  have e : resp (timeLong time thr) = fun i j => (timeLong time thr).map (F i j) := by funext i j; exact hF _ i j
  have hstep : ∀ τ ts x, timeLong time thr = τ :: ts → ubwtStep H (timeLong time thr) (resp (timeLong time thr)) [] 0 = some x →
      (∀ i, x.2 = ∑ j, F i j τ * x.1 j) ∧ MeanOne H x.1 := fun τ ts x htl hx => by
    rw [e, htl] at hx
    rw [htl] at hi
    exact ubwt_first F hi hx
  by_cases ht : t ≤ thr
  · obtain ⟨x, hx, hv⟩ := m4 hsle ⟨k, t, hk, ht⟩
    have hp := (pLong_iff hsle thr k t hk).mpr ht
    have htl : timeLong time thr = thr :: time.drop (pLong time thr) := by unfold timeLong; rw [if_pos (by omega)]
    obtain ⟨c1, c2⟩ := hstep _ _ x htl hx
    obtain ⟨v1, v2⟩ := hv k t hk ht
    exact ⟨x.2, x.1, by rw [v1, if_pos ht], by rw [v2]; simp only [if_pos ht], by simpa only [if_pos ht] using c1, c2⟩
  · have hk0 : k = 0 := hkt.resolve_right ht
    subst hk0
    cases time with
    | nil => simp at hk
    | cons t0 ts =>
      have ht0 : t0 = t := by simpa using hk
      subst ht0
      have hp : pLong (t0 :: ts) thr = 0 := by simp [pLong, ht]
      have htl : timeLong (t0 :: ts) thr = t0 :: ts := by unfold timeLong; rw [hp]; simp
      unfold ubwt at hout
      dsimp only at hout
      split at hout
      · simp at hout
      · rename_i l hl
        obtain ⟨e1, e2⟩ := Prod.mk.inj (Option.some.inj hout)
        obtain ⟨hlen, hst'⟩ := ubwtLoop_spec hl
        obtain ⟨x, hx⟩ : ∃ x, l[0]? = some x := ⟨l[0]'(by rw [hlen, htl]; simp), List.getElem?_eq_getElem _⟩
        obtain ⟨c1, c2⟩ := hstep t0 ts x htl (by simpa using hst' 0 x hx)
        refine ⟨x.2, x.1, ?_, ?_, by simpa only [if_neg ht] using c1, c2⟩
        · rw [if_neg ht, ← e1]
          unfold linearize
          rw [hp, if_neg (by omega), List.getElem?_map, hx]
          rfl
        · rw [← e2]
          unfold linearizeQ
          rw [hp, if_neg (by omega), List.getElem?_map, hx]
          simp only [if_neg ht]
          rfl

/-- Fraction of the value at the threshold. -/
def underThreshold (t thr : ℝ) : ℝ := if t ≤ thr then t / thr else 1

/-- **C135** (first value).  Two runs with response factors `F` and `F'`: the difference of the first values (and of the values under the threshold) is the bilinear form of the rates in the
differences of the response factors; when the rates are not negative, errors of a fraction `ε` of the response factors give an error of at most the fraction `ε` of the g-function. -/
theorem ubwt_stable {H : Fin n → ℝ} (hn : 0 < n) (hH : ∀ i, 0 < H i) {F F' : Fin n → Fin n → ℝ → ℝ} {resp resp' : List ℝ → Fin n → Fin n → List ℝ} (hF : Sampled F resp)
    (hF' : Sampled F' resp') (hsym : ∀ t, Reciprocal H fun i j => F i j t) {time : List ℝ} {thr : ℝ} (hpos : ∀ t ∈ time, 0 < t) (hs : time.Pairwise (· < ·)) (hthr : 0 < thr)
    {g g' : List ℝ} {Qs Qs' : List (Fin n → ℝ)} (hout : ubwt H resp time thr = some (g, Qs)) (hout' : ubwt H resp' time thr = some (g', Qs'))
    {k : ℕ} {t : ℝ} (hk : time[k]? = some t) (hkt : k = 0 ∨ t ≤ thr) :
    ∃ (v v' : ℝ) (Q Q' : Fin n → ℝ), g[k]? = some v ∧ g'[k]? = some v' ∧
      Qs[k]? = some (fun i => if t ≤ thr then 1 + (Q i - 1) * t / thr else Q i) ∧ Qs'[k]? = some (fun i => if t ≤ thr then 1 + (Q' i - 1) * t / thr else Q' i) ∧
      (v' - v) * ∑ i, H i
        = underThreshold t thr * ∑ i, ∑ j, H i * Q i * (F' i j (if t ≤ thr then thr else t) - F i j (if t ≤ thr then thr else t)) * Q' j ∧
      ∀ ε, (∀ i, 0 ≤ Q i) → (∀ i, 0 ≤ Q' i) →
        (∀ i j, |F' i j (if t ≤ thr then thr else t) - F i j (if t ≤ thr then thr else t)| ≤ ε * F i j (if t ≤ thr then thr else t)) → |v' - v| ≤ ε * v := by
  obtain ⟨T, Q, h1, h2, h3, h4⟩ := ubwt_first_value hF hpos hs hthr hout hk hkt
  obtain ⟨T', Q', h1', h2', h3', h4'⟩ := ubwt_first_value hF' hpos hs hthr hout' hk hkt
  have ht := hpos t (List.mem_of_getElem? hk)
  have hu : 0 < underThreshold t thr := by unfold underThreshold; split_ifs <;> positivity
  have hval : ∀ x : ℝ, (if t ≤ thr then x * t / thr else x) = underThreshold t thr * x := fun x => by
    unfold underThreshold; split_ifs <;> ring
  refine ⟨_, _, Q, Q', h1, h1', h2, h2', ?_, fun ε p p' he => ?_⟩
  · rw [hval, hval, ← mul_sub, mul_assoc, bilinear (hsym _) h3 h3' h4 h4']
  · have := bilinear_relative (hsym _) h3 h3' h4 h4' hn hH p p' he
    rw [hval, hval, ← mul_sub, abs_mul, abs_of_pos hu]
    calc underThreshold t thr * |T' - T| ≤ underThreshold t thr * (ε * T) := mul_le_mul_of_nonneg_left this hu.le
      _ = ε * (underThreshold t thr * T) := by ring

/-! ### Uniform time grid: every time -/

/-- Response to a step of the heat extraction rate after `k` time steps. -/
def stepAt (R : ℝ → ℝ) (d : ℝ) (k : ℕ) : ℝ := if k = 0 then 0 else R (k * d)

/-- Change of the response during the time step `k`. -/
def pulseAt (R : ℝ → ℝ) (d : ℝ) (k : ℕ) : ℝ := stepAt R d (k + 1) - stepAt R d k

theorem duhamel_pulses (R : ℝ → ℝ) (d : ℝ) (qs : List ℝ) : ∀ (a prev : ℝ) (M : ℕ), qs.length ≤ M + 1 →
    duhamel R (a + qs.length * d) prev (a :: uniform d a M) qs
      = -prev * stepAt R d qs.length + ∑ l ∈ range qs.length, qs.getD l 0 * pulseAt R d (qs.length - 1 - l) := by
  induction qs with
  | nil => intro a prev M _; simp [duhamel, stepAt]
  | cons q qs ih =>
    intro a prev M hM
    rw [duhamel]
    have hstep : stepAt R d (q :: qs).length = R (a + (q :: qs).length * d - a) := by
      rw [stepAt, if_neg (by simp)]; congr 1; ring
    rw [List.length_cons, sum_range_succ']
    have hs : ∀ l, (q :: qs).getD (l + 1) 0 = qs.getD l 0 := fun l => by simp
    rw [← List.length_cons (a := q), ← hstep]
    rw [List.length_cons] at hM
    cases M with
    | zero =>
      have : qs = [] := List.length_eq_zero_iff.mp (by omega)
      subst this
      simp [duhamel, uniform, pulseAt, stepAt]
      ring
    | succ M =>
      have := ih (a + d) q M (by omega)
      rw [uniform, show a + ((q :: qs).length : ℝ) * d = a + d + (qs.length : ℝ) * d by push_cast [List.length_cons]; ring, this]
      have e : ∑ l ∈ range qs.length, (q :: qs).getD (l + 1) 0 * pulseAt R d ((q :: qs).length - 1 - (l + 1))
          = ∑ l ∈ range qs.length, qs.getD l 0 * pulseAt R d (qs.length - 1 - l) :=
        sum_congr rfl fun l hl => by
          rw [hs, List.length_cons, show qs.length + 1 - 1 - (l + 1) = qs.length - 1 - l by omega]
      rw [e]
      simp only [List.getD_cons_zero, List.length_cons, Nat.add_sub_cancel, Nat.sub_zero, pulseAt]
      ring

/-- Specification: the rates `Q p` of the steps `p ≤ m` have mean one and give the temperatures `T p`, the same for all segments, by superposition of pulses with the responses `c`. -/
structure History (H : Fin n → ℝ) (c : Fin n → Fin n → ℕ → ℝ) (Q : ℕ → Fin n → ℝ) (T : ℕ → ℝ) (m : ℕ) : Prop where
  temp : ∀ p ≤ m, ∀ i, T p = ∑ j, ∑ l ∈ range (p + 1), Q l j * c i j (p - l)
  mean : ∀ p ≤ m, MeanOne H (Q p)

open PowerSeries in
theorem History.conv {H : Fin n → ℝ} {c : Fin n → Fin n → ℕ → ℝ} {Q : ℕ → Fin n → ℝ} {T : ℕ → ℝ} {m : ℕ} (h : History H c Q T m) {Q' : ℕ → Fin n → ℝ} (hQ' : ∀ p ≤ m, MeanOne H (Q' p))
    {P : ℕ} (hP : P ≤ m) :
    (∑ p ∈ range (P + 1), T p) * ∑ i, H i = ∑ i, ∑ j, H i * coeff P (PowerSeries.mk (c i j) * (PowerSeries.mk (fun p => Q p j) * PowerSeries.mk fun p => Q' p i)) := by
  have h1 : (∑ p ∈ range (P + 1), T p) * ∑ i, H i = ∑ x ∈ antidiagonal P, T x.1 * ∑ i, H i * Q' x.2 i := by
    rw [sum_mul, Nat.sum_antidiagonal_eq_sum_range_succ (fun a b => T a * ∑ i, H i * Q' b i)]
    refine sum_congr rfl fun p hp => ?_
    rw [hQ' (P - p) (by omega)]
  rw [h1]
  simp_rw [mul_sum]
  rw [sum_comm]
  refine sum_congr rfl fun i _ => ?_
  have h2 : ∀ j, H i * coeff P (PowerSeries.mk (c i j) * (PowerSeries.mk (fun p => Q p j) * PowerSeries.mk fun p => Q' p i))
      = ∑ x ∈ antidiagonal P, H i * ((∑ l ∈ range (x.1 + 1), Q l j * c i j (x.1 - l)) * Q' x.2 i) := fun j => by
    rw [← mul_assoc, mul_comm (PowerSeries.mk (c i j)), coeff_mul, mul_sum]
    refine sum_congr rfl fun x _ => ?_
    rw [coeff_mul, coeff_mk, Nat.sum_antidiagonal_eq_sum_range_succ (fun a b => coeff a (PowerSeries.mk fun p => Q p j) * coeff b (PowerSeries.mk (c i j)))]
    simp only [coeff_mk]
  rw [sum_congr rfl fun j _ => h2 j, sum_comm]
  refine sum_congr rfl fun x hx => ?_
  have hx' := mem_antidiagonal.mp hx
  rw [h.temp x.1 (by omega) i, sum_mul]
  exact sum_congr rfl fun j _ => by ring

open PowerSeries in
/-- The sums of two g-functions on a uniform grid. -/
theorem History.bilinear {H : Fin n → ℝ} {c c' : Fin n → Fin n → ℕ → ℝ} (hsym : ∀ k, Reciprocal H fun i j => c i j k) {Q Q' : ℕ → Fin n → ℝ} {T T' : ℕ → ℝ} {m : ℕ}
    (h : History H c Q T m) (h' : History H c' Q' T' m) {P : ℕ} (hP : P ≤ m) :
    (∑ p ∈ range (P + 1), T' p - ∑ p ∈ range (P + 1), T p) * ∑ i, H i
        = ∑ i, ∑ j, H i * coeff P (PowerSeries.mk (fun k => c' i j k - c i j k) * (PowerSeries.mk (fun p => Q' p j) * PowerSeries.mk fun p => Q p i)) ∧
    (∑ p ∈ range (P + 1), T p) * ∑ i, H i = ∑ i, ∑ j, H i * coeff P (PowerSeries.mk (c i j) * (PowerSeries.mk (fun p => Q' p j) * PowerSeries.mk fun p => Q p i)) := by
  have h2 : (∑ p ∈ range (P + 1), T p) * ∑ i, H i = ∑ i, ∑ j, H i * coeff P (PowerSeries.mk (c i j) * (PowerSeries.mk (fun p => Q' p j) * PowerSeries.mk fun p => Q p i)) := by
    rw [h.conv h'.mean hP, sum_comm]
    refine sum_congr rfl fun j _ => sum_congr rfl fun i _ => ?_
    rw [coeff_mul, coeff_mul, mul_sum, mul_sum]
    refine sum_congr rfl fun x _ => ?_
    rw [coeff_mk, coeff_mk, mul_comm (PowerSeries.mk fun p => Q p j), ← mul_assoc, ← mul_assoc, hsym x.1 i j]
  refine ⟨?_, h2⟩
  rw [sub_mul, h2, h'.conv h.mean hP, ← sum_sub_distrib]
  refine sum_congr rfl fun i _ => ?_
  rw [← sum_sub_distrib]
  refine sum_congr rfl fun j _ => ?_
  rw [← mul_sub, ← map_sub, ← sub_mul]
  congr 3

open PowerSeries in
theorem History.relative {H : Fin n → ℝ} (hn : 0 < n) (hH : ∀ i, 0 < H i) {c c' : Fin n → Fin n → ℕ → ℝ} (hsym : ∀ k, Reciprocal H fun i j => c i j k) {Q Q' : ℕ → Fin n → ℝ} {T T' : ℕ → ℝ} {m : ℕ}
    (h : History H c Q T m) (h' : History H c' Q' T' m) {P : ℕ} (hP : P ≤ m) {ε : ℝ} (p : ∀ k ≤ P, ∀ i, 0 ≤ Q k i) (p' : ∀ k ≤ P, ∀ i, 0 ≤ Q' k i)
    (he : ∀ i j, ∀ k ≤ P, |c' i j k - c i j k| ≤ ε * c i j k) :
    |∑ p ∈ range (P + 1), T' p - ∑ p ∈ range (P + 1), T p| ≤ ε * ∑ p ∈ range (P + 1), T p := by
  have hW : 0 < ∑ i, H i := sum_pos (fun i _ => hH i) ⟨⟨0, hn⟩, mem_univ _⟩
  obtain ⟨h1, h2⟩ := h.bilinear hsym h' hP
  refine le_of_mul_le_mul_right (?_ : _ * ∑ i, H i ≤ _) hW
  rw [mul_assoc, h2]
  nth_rewrite 1 [← abs_of_pos hW]
  rw [← abs_mul, h1, mul_sum]
  refine (abs_sum_le_sum_abs _ _).trans (sum_le_sum fun i _ => ?_)
  rw [mul_sum]
  refine (abs_sum_le_sum_abs _ _).trans (sum_le_sum fun j _ => ?_)
  rw [abs_mul, abs_of_pos (hH i), coeff_mul, coeff_mul, ← mul_assoc, mul_comm ε, mul_assoc]
  refine mul_le_mul_of_nonneg_left ?_ (hH i).le
  rw [mul_sum]
  refine (abs_sum_le_sum_abs _ _).trans (sum_le_sum fun x hx => ?_)
  have hx' := mem_antidiagonal.mp hx
  have hw : 0 ≤ coeff x.2 ((PowerSeries.mk fun p => Q' p j) * PowerSeries.mk fun p => Q p i) := by
    rw [coeff_mul]
    refine sum_nonneg fun y hy => ?_
    have hy' := mem_antidiagonal.mp hy
    rw [coeff_mk, coeff_mk]
    exact mul_nonneg (p' _ (by omega) j) (p _ (by omega) i)
  rw [abs_mul, abs_of_nonneg hw, coeff_mk, coeff_mk, ← mul_assoc]
  exact mul_le_mul_of_nonneg_right (he i j x.1 (by omega)) hw

/-- The time loop on a uniform grid is a history. -/
theorem ubwtLoop_history {H : Fin n → ℝ} (F : Fin n → Fin n → ℝ → ℝ) {d : ℝ} (hd : 0 < d) (m : ℕ) {l : List ((Fin n → ℝ) × ℝ)}
    (h : ubwtLoop H (d :: uniform d d m) (fun i j => (d :: uniform d d m).map (F i j)) (m + 1) = some l) :
    History H (fun i j => pulseAt (F i j) d) (fun p => (l.getD p (0, 0)).1) (fun p => (l.getD p (0, 0)).2) m := by
  obtain ⟨hlen, hst⟩ := ubwtLoop_spec h
  have hget : ∀ p ≤ m, l[p]? = some (l.getD p (0, 0)) := fun p hp => by
    rw [List.getD_eq_getElem?_getD, List.getElem?_eq_getElem (by omega)]; rfl
  refine ⟨fun p hp i => ?_, fun p hp => ?_⟩
  · rw [ubwt_superposition F hd m h hp (hget p hp) i]
    refine sum_congr rfl fun j _ => ?_
    obtain ⟨qs, hqs⟩ : ∃ qs, qs = (l.take (p + 1)).map fun z => z.1 j := ⟨_, rfl⟩
    have hl : qs.length = p + 1 := by rw [hqs]; simp [hlen]; omega
    rw [← hqs]
    have := duhamel_pulses (F i j) d qs 0 0 (p + 1) (by omega)
    rw [uniform, zero_add, zero_add, hl] at this
    push_cast at this
    rw [this, neg_zero, zero_mul, zero_add]
    refine sum_congr rfl fun k hk => ?_
    have hk' := mem_range.mp hk
    congr 1
    rw [hqs, List.getD_eq_getElem?_getD, List.getElem?_map, List.getElem?_take_of_lt hk', hget k (by omega)]
    rfl
  · obtain ⟨_, _, _, _, hm, _⟩ := ubwtStep_spec (hst p _ (hget p hp))
    exact hm

/-- **C135** (uniform time grid).  Two runs with response factors `F` and `F'` on the times `d`, `2 d`, …: when the rates are not negative and the changes of the response factors per time step differ by
at most the fraction `ε`, the sums (hence the averages) of the two g-functions up to any time differ by at most the fraction `ε`. -/
theorem ubwt_stable_uniform {H : Fin n → ℝ} (hn : 0 < n) (hH : ∀ i, 0 < H i) {F F' : Fin n → Fin n → ℝ → ℝ} (hsym : ∀ t, Reciprocal H fun i j => F i j t) {d : ℝ} (hd : 0 < d) (m : ℕ)
    {l l' : List ((Fin n → ℝ) × ℝ)} (h : ubwtLoop H (d :: uniform d d m) (fun i j => (d :: uniform d d m).map (F i j)) (m + 1) = some l)
    (h' : ubwtLoop H (d :: uniform d d m) (fun i j => (d :: uniform d d m).map (F' i j)) (m + 1) = some l') {P : ℕ} (hP : P ≤ m) {ε : ℝ}
    (p : ∀ x ∈ l.take (P + 1), ∀ i, 0 ≤ x.1 i) (p' : ∀ x ∈ l'.take (P + 1), ∀ i, 0 ≤ x.1 i)
    (he : ∀ i j, ∀ k ≤ P, |pulseAt (F' i j) d k - pulseAt (F i j) d k| ≤ ε * pulseAt (F i j) d k) :
    |((l'.take (P + 1)).map Prod.snd).sum - ((l.take (P + 1)).map Prod.snd).sum| ≤ ε * ((l.take (P + 1)).map Prod.snd).sum := by
  have key : ∀ {l : List ((Fin n → ℝ) × ℝ)}, l.length = m + 1 → ((l.take (P + 1)).map Prod.snd).sum = ∑ p ∈ range (P + 1), (l.getD p (0, 0)).2 := fun {l} hl => by
    have e : (l.take (P + 1)).map Prod.snd = List.ofFn fun p : Fin (P + 1) => (l.getD p (0, 0)).2 := by
      refine List.ext_getElem (by simp [hl]; omega) fun k h1 h2 => ?_
      have : k < l.length := by simp at h1; omega
      rw [List.getElem_ofFn, List.getElem_map, List.getElem_take, List.getD_eq_getElem?_getD, List.getElem?_eq_getElem this]
      rfl
    rw [e, List.sum_ofFn, Fin.sum_univ_eq_sum_range (fun p => (l.getD p (0, 0)).2)]
  have pos : ∀ {l : List ((Fin n → ℝ) × ℝ)}, l.length = m + 1 → (∀ x ∈ l.take (P + 1), ∀ i, 0 ≤ x.1 i) → ∀ k ≤ P, ∀ i, 0 ≤ (l.getD k (0, 0)).1 i := fun {l} hl hp k hk i => by
    refine hp _ ?_ i
    rw [List.getD_eq_getElem?_getD, List.getElem?_eq_getElem (by omega)]
    exact List.mem_of_getElem? (i := k) (by rw [List.getElem?_take_of_lt (by omega), List.getElem?_eq_getElem (by omega)]; rfl)
  rw [key (ubwtLoop_spec h).1, key (ubwtLoop_spec h').1]
  refine (ubwtLoop_history F hd m h).relative hn hH (fun k i j => ?_) (ubwtLoop_history F' hd m h') hP (pos (ubwtLoop_spec h).1 p) (pos (ubwtLoop_spec h').1 p') he
  have hst : ∀ k, H i * stepAt (F i j) d k = H j * stepAt (F j i) d k := fun k => by
    unfold stepAt
    split_ifs
    · ring
    · exact hsym _ i j
  unfold pulseAt
  rw [mul_sub, mul_sub, hst, hst]

/-! ### Cases -/

/-- Two segments of lengths 1 and 2; the response factors of the first have an error of 5 %. -/
example : |(315 / 73 : ℝ) - 30 / 7| ≤ 0.05 * (30 / 7) :=
  bilinear_relative (H := ![1, 2]) (F := ![![4, 2], ![1, 3]]) (F' := ![![4.2, 2.1], ![1, 3]]) (Q := ![3 / 7, 9 / 7]) (Q' := ![27 / 73, 96 / 73])
    (fun i j => by fin_cases i <;> fin_cases j <;> norm_num) (fun i => by fin_cases i <;> norm_num [Fin.sum_univ_succ]) (fun i => by fin_cases i <;> norm_num [Fin.sum_univ_succ])
    (by norm_num [MeanOne, Fin.sum_univ_succ]) (by norm_num [MeanOne, Fin.sum_univ_succ]) (by norm_num) (fun i => by fin_cases i <;> norm_num)
    (fun i => by fin_cases i <;> norm_num) (fun i => by fin_cases i <;> norm_num) (fun i j => by fin_cases i <;> fin_cases j <;> norm_num [abs_le])

/-- A loop over a uniform grid returns for one segment whose response is `k` times the time. -/
theorem single_loop {k d : ℝ} (hk : 0 < k) (hd : 0 < d) (m : ℕ) :
    ∃ l, ubwtLoop (n := 1) (fun _ => 1) (d :: uniform d d m) (fun _ _ => (d :: uniform d d m).map fun t => k * t) (m + 1) = some l ∧ ∀ x ∈ l, ∀ i, 0 ≤ x.1 i := by
  have hi : Increasing 0 (d :: uniform d d m) := ⟨hd, uniform_increasing hd d m⟩
  have hp : pLong (d :: uniform d d m) 0 = 0 := by simp [pLong, hd]
  have htl : timeLong (d :: uniform d d m) 0 = d :: uniform d d m := by unfold timeLong; rw [hp]; simp
  have hlen : (uniform d d m).length = m := uniform_length d d m
  obtain ⟨out, hout⟩ := ubwt_returns (n := 1) (H := fun _ => 1) one_pos (fun _ _ t => k * t) (resp := fun tl _ _ => tl.map fun t => k * t) (fun _ _ _ => rfl)
    (time := d :: uniform d d m) (thr := 0) (by rw [htl]; exact hi) fun h p hp hh => by
      refine Gf.definite_step (fun _ _ t => k * t) (by rw [htl]; exact hi) (fun t ht Q hQ => ?_) hp hh
      rw [htl] at ht
      have ht0 := Gf.increasing_gt hi t ht
      have hq : Q 0 ≠ 0 := fun h0 => hQ (funext fun i => by rw [Subsingleton.elim i 0, h0]; rfl)
      simp only [Fin.sum_univ_one]
      have : 0 < k * t * Q 0 ^ 2 := by positivity
      linarith
  unfold ubwt at hout
  dsimp only at hout
  rw [htl, List.length_cons, hlen] at hout
  split at hout
  · simp at hout
  · rename_i l hl
    refine ⟨l, hl, fun x hx i => ?_⟩
    obtain ⟨p, hp, rfl⟩ := List.mem_iff_getElem.mp hx
    have := (ubwtLoop_history (H := fun _ => (1 : ℝ)) (fun _ _ t => k * t) hd m hl).mean p (by rw [(ubwtLoop_spec hl).1] at hp; omega)
    unfold MeanOne at this
    simp only [Fin.sum_univ_one, one_mul] at this
    rw [Subsingleton.elim i 0]
    rw [List.getD_eq_getElem?_getD, List.getElem?_eq_getElem hp] at this
    have h' : l[p].1 0 = 1 := this
    rw [h']
    exact zero_le_one

/-- One segment: responses `t` and `1.05 t` over five times. -/
example : ∃ l l' : List ((Fin 1 → ℝ) × ℝ), |((l'.take 5).map Prod.snd).sum - ((l.take 5).map Prod.snd).sum| ≤ 0.05 * ((l.take 5).map Prod.snd).sum := by
  obtain ⟨l, h1, p1⟩ := single_loop (k := 1) (d := 1) one_pos one_pos 4
  obtain ⟨l', h2, p2⟩ := single_loop (k := 1.05) (d := 1) (by norm_num) one_pos 4
  refine ⟨l, l', ubwt_stable_uniform (H := fun _ => 1) one_pos (fun _ => one_pos) (F := fun _ _ t => 1 * t) (F' := fun _ _ t => 1.05 * t) (fun _ _ _ => rfl) one_pos 4 h1 h2 le_rfl
    (fun x hx => p1 x (List.mem_of_mem_take hx)) (fun x hx => p2 x (List.mem_of_mem_take hx)) fun _ _ k _ => ?_⟩
  unfold pulseAt stepAt
  rcases Nat.eq_zero_or_pos k with h | h
  · subst h; norm_num
  · rw [if_neg (by omega), if_neg (by omega), if_neg (by omega), if_neg (by omega)]
    push_cast
    rw [abs_le]
    constructor <;> linarith

end Verif.Sol
