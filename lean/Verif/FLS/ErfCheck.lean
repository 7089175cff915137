import Verif.FLS.ApproxProps
import Mathlib.Analysis.SpecialFunctions.Trigonometric.Series
import Mathlib.Analysis.Real.Pi.Bounds
import Mathlib.Analysis.SpecialFunctions.Trigonometric.DerivHyp

/-!
# A verified bound of the difference of a sum of Gaussians and the error function

A checker in integer arithmetic (fixed point with 60 bits): it steps through a mesh from 0 to a point where both
functions are nearly 1, and bounds their difference on each cell by its value at the left end and bounds of
its slope.  `check_sound`: if the checker succeeds, the bound holds for all positive real numbers.
-/

noncomputable section

namespace Verif.FLS.ErfCheck

open Real MeasureTheory Set

/-! ### The checker -/

/-- The scale of the values, `2 ^ 60`. -/
def sc : ℕ := 1152921504606846976

/-- The scale of the coefficients, `10 ^ 20`. -/
def T : ℕ := 100000000000000000000

/-- The scale of the mesh, `2 ^ 30`. -/
def U : ℕ := 1073741824

def horner (z p k : ℕ) : ℕ := sc - z * p / (k * sc)

def sq (p : ℕ) : ℕ := p * p / sc

/-- Taylor polynomial of degree 8. -/
def taylor (z : ℕ) : ℕ :=
  horner z (horner z (horner z (horner z (horner z (horner z (horner z (horner z sc 8) 7) 6) 5) 4) 3) 2) 1

/-- `exp (-y)`. -/
def expN (y : ℕ) : ℕ :=
  bif Nat.ble (32 * sc) y then 0 else sq (sq (sq (sq (sq (sq (sq (sq (sq (taylor (y / 512))))))))))

/-- `∑ a exp (-b x²)` and `∑ a b exp (-b x²)`, for `x2 = x²`. -/
def gSum : List (ℕ × ℕ) → ℕ → ℕ
  | [], _ => 0
  | c :: r, x2 => c.1 * expN (c.2 * x2 / T) + gSum r x2

def sSum : List (ℕ × ℕ) → ℕ → ℕ
  | [], _ => 0
  | c :: r, x2 => c.2 * (c.1 * expN (c.2 * x2 / T)) + sSum r x2

/-- Bounds of `2 / √π`. -/
def cL : ℕ := 112837916709551
def cH : ℕ := 112837916709552
def cD : ℕ := 100000000000000

/-- Evaluates a number before passing it on. -/
def force {α : Type} (n : ℕ) (k : ℕ → α) : α := Nat.rec (k 0) (fun m _ => k (Nat.succ m)) n

/-- The cell from `X` to `X + 2 R`: `g`, `s`, `e` are the sums and `exp (-x²)` at the left end, `s'` and `e'` at the right end; `jl` and `jh` bound the integral of
`exp (-x²)` up to the left end. -/
def cellOk (eps X R jl jh g s e s' e' : ℕ) : Bool :=
  Nat.ble (sc + 262144 + (((2 * (X + 2 * R) * (s + 274877906944) / U + 1) - cL * (e' - 65536) / cD) * (2 * R) / U + 1)) (eps + g + cL * jl / cD)
    && Nat.ble (g + 262145 + (cH * jh / cD + 1) + (((cH * (e + 65536) / cD + 1) - 2 * X * (s' - 274877906944) / U) * (2 * R) / U + 1)) (eps + sc)
    && Nat.ble ((2 * (X + R) ^ 2 + U ^ 2) * R ^ 2) (U ^ 4)

/-- Bounds of the integral of `exp (-x²)` over the cell with midpoint `M` and width `H`. -/
def incL (M H em : ℕ) : ℕ :=
  (em - 65536) * H * (240 * U ^ 4 + 40 * M ^ 2 * H ^ 2 - (20 * U ^ 2 * H ^ 2 + (6 * M ^ 2 * H ^ 4 / U ^ 2 + 1))) / (240 * U ^ 5)

def incH (M H em : ℕ) : ℕ :=
  (em + 65536) * H * (240 * U ^ 4 + 40 * M ^ 2 * H ^ 2 + (3 * (4 * M ^ 4 + U ^ 4) * H ^ 4 / U ^ 4 + 1) - 20 * U ^ 2 * H ^ 2) / (240 * U ^ 5) + 1

def loop (r : List (ℕ × ℕ)) (eps : ℕ) : List ℕ → ℕ → ℕ → ℕ → ℕ → ℕ → ℕ → Bool
  | [], _, jl, _, g, _, _ => Nat.ble (g + 262145) eps && Nat.ble sc (eps + cL * jl / cD)
  | R :: l, X, jl, jh, g, s, e =>
    force (X + 2 * R) fun Y =>
    force (gSum r (Y * Y) / T) fun g' =>
    force (sSum r (Y * Y) / (T * T)) fun s' =>
    force (expN (Y * Y)) fun e' =>
    cellOk eps X R jl jh g s e s' e' &&
      force (expN ((X + R) * (X + R))) fun em =>
      force (jl + incL (X + R) (2 * R) em) fun jl' =>
      force (jh + incH (X + R) (2 * R) em) fun jh' =>
      loop r eps l Y jl' jh' g' s' e'

/-- The mesh: numbers of cells and half widths. -/
def mesh : List (ℕ × ℕ) → List ℕ
  | [] => []
  | c :: m => List.replicate c.1 c.2 ++ mesh m

def check (r : List (ℕ × ℕ)) (eps : ℕ) (m : List (ℕ × ℕ)) : Bool :=
  loop r eps (mesh m) 0 0 0 (gSum r 0 / T) (sSum r 0 / (T * T)) (expN 0)

attribute [local irreducible] sc T U

/-! ### The exponential function -/

theorem sc_pos : (0 : ℝ) < (sc : ℝ) := by unfold sc; norm_num

theorem div_floor (a b : ℕ) (hb : 0 < b) : ((a / b : ℕ) : ℝ) ≤ (a : ℝ) / b ∧ (a : ℝ) / b ≤ ((a / b : ℕ) : ℝ) + 1 := by
  have hb' : (0 : ℝ) < b := by exact_mod_cast hb
  refine ⟨Nat.cast_div_le, ?_⟩
  rw [div_le_iff₀ hb']
  have := (Nat.lt_div_mul_add hb (a := a)).le
  have h2 : (a : ℝ) ≤ ((a / b * b + b : ℕ) : ℝ) := by exact_mod_cast this
  push_cast at h2
  nlinarith

theorem sq_err {p : ℕ} {v d : ℝ} (hp : p ≤ sc) (h0 : 0 ≤ v) (h1 : v ≤ 1) (h : |(p : ℝ) / sc - v| ≤ d) :
    sq p ≤ sc ∧ |(sq p : ℝ) / sc - v ^ 2| ≤ 2 * d + 1 / sc := by
  have hs := sc_pos
  have hsn : 0 < sc := by unfold sc; norm_num
  obtain ⟨a, ha⟩ : ∃ a : ℝ, a = (p : ℝ) / sc := ⟨_, rfl⟩
  have ha0 : 0 ≤ a := by rw [ha]; positivity
  have ha1 : a ≤ 1 := by
    rw [ha, div_le_one hs]
    exact_mod_cast hp
  constructor
  · unfold sq
    calc p * p / sc ≤ sc * sc / sc := Nat.div_le_div_right (Nat.mul_le_mul hp hp)
      _ = sc := Nat.mul_div_cancel _ hsn
  · obtain ⟨e1, e2⟩ := div_floor (p * p) sc hsn
    push_cast at e1 e2
    have e3 : ((p : ℝ) * p / sc) / sc = a ^ 2 := by rw [ha]; field_simp
    have f1 : (sq p : ℝ) / sc ≤ a ^ 2 := by
      rw [← e3]
      unfold sq
      gcongr
    have f2 : a ^ 2 ≤ (sq p : ℝ) / sc + 1 / sc := by
      rw [← e3, ← add_div]
      unfold sq
      gcongr
    rw [← ha] at h
    have h' := abs_le.mp h
    have hd : 0 ≤ d := (abs_nonneg _).trans h
    have hq : |a ^ 2 - v ^ 2| ≤ 2 * d := by
      rw [sq_sub_sq, abs_mul, abs_of_nonneg (by linarith)]
      nlinarith [abs_nonneg (a - v)]
    have hq' := abs_le.mp hq
    rw [abs_le]
    constructor
    · linarith
    · linarith [one_div_pos.mpr hs]

theorem horner_err {z p k : ℕ} {v : ℝ} (hz : 16 * z ≤ sc) (hk : 1 ≤ k) (hp : p ≤ sc) (h : |(p : ℝ) / sc - v| ≤ 2 / sc) :
    horner z p k ≤ sc ∧ |(horner z p k : ℝ) / sc - (1 - (z : ℝ) / sc * v / k)| ≤ 2 / sc := by
  have hs := sc_pos
  have hsn : 0 < sc := by unfold sc; norm_num
  refine ⟨Nat.sub_le _ _, ?_⟩
  have hle : z * p / (k * sc) ≤ sc := by
    apply Nat.div_le_of_le_mul
    calc z * p ≤ sc * sc := Nat.mul_le_mul (by omega) hp
      _ ≤ k * sc * sc := by nlinarith
  obtain ⟨e1, e2⟩ := div_floor (z * p) (k * sc) (by positivity)
  push_cast at e1 e2
  have hk' : (1 : ℝ) ≤ k := by exact_mod_cast hk
  have hz' : 16 * (z : ℝ) ≤ sc := by exact_mod_cast hz
  obtain ⟨a, ha⟩ : ∃ a : ℝ, a = (p : ℝ) / sc := ⟨_, rfl⟩
  obtain ⟨w, hw⟩ : ∃ w : ℝ, w = (z : ℝ) / sc := ⟨_, rfl⟩
  have hw0 : 0 ≤ w := by rw [hw]; positivity
  have hw1 : w ≤ 1 / 16 := by rw [hw, div_le_iff₀ hs]; linarith
  rw [← ha] at h
  rw [← hw]
  have e3 : ((z : ℝ) * p / (k * sc)) / sc = w * a / k := by rw [ha, hw]; field_simp
  have e4 : (horner z p k : ℝ) / sc = 1 - ((z * p / (k * sc) : ℕ) : ℝ) / sc := by
    unfold horner
    rw [Nat.cast_sub hle, sub_div, div_self hs.ne']
  have f1 : ((z * p / (k * sc) : ℕ) : ℝ) / sc ≤ w * a / k := by
    rw [← e3]; gcongr
  have f2 : w * a / k ≤ ((z * p / (k * sc) : ℕ) : ℝ) / sc + 1 / sc := by
    rw [← e3, ← add_div]; gcongr
  have hq : |w * a / k - w * v / k| ≤ 1 / sc := by
    rw [← sub_div, ← mul_sub, abs_div, abs_mul, abs_of_nonneg hw0, abs_of_nonneg (by linarith : (0 : ℝ) ≤ k), div_le_iff₀ (by linarith)]
    have : w * |a - v| ≤ 1 / 16 * (2 / sc) := by gcongr
    have h1 : 0 < 1 / (sc : ℝ) := one_div_pos.mpr hs
    have h2 : 2 / (sc : ℝ) = 2 * (1 / sc) := by ring
    rw [h2] at this
    nlinarith
  have hq' := abs_le.mp hq
  have h2 : 2 / (sc : ℝ) = 2 * (1 / sc) := by ring
  have h1 : 0 < 1 / (sc : ℝ) := one_div_pos.mpr hs
  rw [e4, h2, abs_le]
  constructor
  · linarith
  · linarith

theorem taylor_err {z : ℕ} (hz : 16 * z ≤ sc) : taylor z ≤ sc ∧ |(taylor z : ℝ) / sc - exp (-((z : ℝ) / sc))| ≤ 2 / sc + 1 / 2 ^ 54 := by
  have hs := sc_pos
  obtain ⟨w, hw⟩ : ∃ w : ℝ, w = (z : ℝ) / sc := ⟨_, rfl⟩
  have hw0 : 0 ≤ w := by rw [hw]; positivity
  have hz' : 16 * (z : ℝ) ≤ sc := by exact_mod_cast hz
  have hw1 : w ≤ 1 / 16 := by rw [hw, div_le_iff₀ hs]; linarith
  have h8 : |(sc : ℝ) / sc - 1| ≤ 2 / sc := by
    rw [div_self hs.ne', sub_self, abs_zero]; positivity
  obtain ⟨a7, h7⟩ := horner_err hz (k := 8) (by norm_num) le_rfl h8
  obtain ⟨a6, h6⟩ := horner_err hz (k := 7) (by norm_num) a7 h7
  obtain ⟨a5, h5⟩ := horner_err hz (k := 6) (by norm_num) a6 h6
  obtain ⟨a4, h4⟩ := horner_err hz (k := 5) (by norm_num) a5 h5
  obtain ⟨a3, h3⟩ := horner_err hz (k := 4) (by norm_num) a4 h4
  obtain ⟨a2, h2⟩ := horner_err hz (k := 3) (by norm_num) a3 h3
  obtain ⟨a1, h1⟩ := horner_err hz (k := 2) (by norm_num) a2 h2
  obtain ⟨a0, h0⟩ := horner_err hz (k := 1) (by norm_num) a1 h1
  refine ⟨a0, ?_⟩
  have hb := Real.exp_bound (x := -w) (by rw [abs_neg, abs_of_nonneg hw0]; linarith) (n := 9) (by norm_num)
  rw [abs_neg, abs_of_nonneg hw0] at hb
  have hb2 : w ^ 9 * ((Nat.succ 9 : ℕ) / ((Nat.factorial 9 : ℕ) * (9 : ℕ)) : ℝ) ≤ 1 / 2 ^ 54 := by
    have : w ^ 9 ≤ (1 / 16) ^ 9 := by gcongr
    have h9 : (Nat.factorial 9 : ℝ) = 362880 := by norm_num [Nat.factorial]
    rw [h9]
    push_cast
    nlinarith
  have h3' := hb.trans hb2
  rw [← hw] at h0 ⊢
  obtain ⟨q, hq⟩ : ∃ q : ℝ, q = ∑ m ∈ Finset.range 9, (-w) ^ m / (m.factorial : ℝ) := ⟨_, rfl⟩
  have hpoly : 1 - w * (1 - w * (1 - w * (1 - w * (1 - w * (1 - w * (1 - w * (1 - w * 1 / (8 : ℕ)) / (7 : ℕ)) / (6 : ℕ)) / (5 : ℕ)) / (4 : ℕ)) / (3 : ℕ)) / (2 : ℕ)) / (1 : ℕ) = q := by
    rw [hq]
    simp only [Finset.sum_range_succ, Finset.sum_range_zero, Nat.factorial]
    push_cast
    ring
  rw [hpoly] at h0
  rw [← hq] at h3'
  have := abs_sub_le ((taylor z : ℝ) / sc) q (exp (-w))
  rw [abs_sub_comm q] at this
  unfold taylor at this ⊢
  linarith

theorem exp32 : exp (-32) ≤ 1 / 2 ^ 44 := by
  rw [exp_neg, ← one_div]
  apply one_div_le_one_div_of_le (by positivity)
  have h := Real.exp_one_gt_d9
  calc (2 : ℝ) ^ 44 ≤ 2.7182818283 ^ 32 := by norm_num
    _ ≤ exp 1 ^ 32 := by gcongr
    _ = exp 32 := by rw [← exp_nat_mul]; norm_num

theorem div512 {S y : ℕ} (h : ¬ 32 * S ≤ y) : 16 * (y / 512) ≤ S := by omega

theorem cond_ble {α : Type} (a b : ℕ) (x y : α) : (bif Nat.ble a b then x else y) = if a ≤ b then x else y := by
  by_cases h : a ≤ b
  · rw [if_pos h, Nat.ble_eq.mpr h, cond_true]
  · rw [if_neg h, show Nat.ble a b = false by rw [← Bool.not_eq_true, Nat.ble_eq]; exact h, cond_false]

theorem expN_eq (y : ℕ) : expN y = if 32 * sc ≤ y then 0 else sq (sq (sq (sq (sq (sq (sq (sq (sq (taylor (y / 512)))))))))) :=
  cond_ble _ _ _ _

/-- The integer exponential function has an error of at most `2⁻⁴⁴`. -/
theorem expN_err (y : ℕ) : |(expN y : ℝ) / sc - exp (-((y : ℝ) / sc))| ≤ 1 / 2 ^ 44 := by
  have hs := sc_pos
  have hsn : 0 < sc := by unfold sc; norm_num
  rw [expN_eq]
  by_cases hy : 32 * sc ≤ y
  · rw [if_pos hy]
    simp only [Nat.cast_zero, zero_div, zero_sub, abs_neg, abs_exp]
    refine le_trans (exp_le_exp.mpr ?_) exp32
    rw [neg_le_neg_iff, le_div_iff₀ hs]
    exact_mod_cast hy
  · rw [if_neg hy]
    have hz : 16 * (y / 512) ≤ sc := div512 hy
    obtain ⟨a0, h0⟩ := taylor_err hz
    obtain ⟨f1, f2⟩ := div_floor y 512 (by norm_num)
    push_cast at f1 f2
    obtain ⟨v, hv⟩ : ∃ v : ℝ, v = exp (-((y : ℝ) / 512 / sc)) := ⟨_, rfl⟩
    have v0 : 0 ≤ v := by rw [hv]; exact (exp_pos _).le
    have v1 : v ≤ 1 := by rw [hv, exp_le_one_iff]; have : (0:ℝ) ≤ (y : ℝ) / 512 / sc := by positivity
                          linarith
    have hd : |exp (-(((y / 512 : ℕ) : ℝ) / sc)) - v| ≤ 1 / sc := by
      have g1 : ((y / 512 : ℕ) : ℝ) / sc ≤ (y : ℝ) / 512 / sc := by gcongr
      have g2 : (y : ℝ) / 512 / sc ≤ ((y / 512 : ℕ) : ℝ) / sc + 1 / sc := by
        rw [← add_div]; gcongr
      have g3 : v ≤ exp (-(((y / 512 : ℕ) : ℝ) / sc)) := by
        rw [hv]; exact exp_le_exp.mpr (by linarith)
      have g4 : exp (-(((y / 512 : ℕ) : ℝ) / sc)) ≤ 1 := by
        rw [exp_le_one_iff]
        have : (0:ℝ) ≤ ((y / 512 : ℕ) : ℝ) / sc := by positivity
        linarith
      rw [abs_of_nonneg (by linarith)]
      have g5 : v = exp (-(((y / 512 : ℕ) : ℝ) / sc)) * exp (-((y : ℝ) / 512 / sc - ((y / 512 : ℕ) : ℝ) / sc)) := by
        rw [hv, ← exp_add]; congr 1; ring
      have g6 := add_one_le_exp (-((y : ℝ) / 512 / sc - ((y / 512 : ℕ) : ℝ) / sc))
      have g7 : 0 < exp (-(((y / 512 : ℕ) : ℝ) / sc)) := exp_pos _
      nlinarith
    have h1 : |(taylor (y / 512) : ℝ) / sc - v| ≤ 3 * (1 / sc) + 1 / 2 ^ 54 := by
      have := abs_sub_le ((taylor (y / 512) : ℝ) / sc) (exp (-(((y / 512 : ℕ) : ℝ) / sc))) v
      have e : 2 / (sc : ℝ) = 2 * (1 / sc) := by ring
      linarith
    have hp : ∀ n : ℕ, 0 ≤ v ^ n ∧ v ^ n ≤ 1 := fun n => ⟨by positivity, pow_le_one₀ v0 v1⟩
    obtain ⟨b1, s1⟩ := sq_err a0 v0 v1 h1
    obtain ⟨b2, s2⟩ := sq_err b1 (hp 2).1 (hp 2).2 s1
    rw [← pow_mul] at s2
    obtain ⟨b3, s3⟩ := sq_err b2 (hp _).1 (hp _).2 s2
    rw [← pow_mul] at s3
    obtain ⟨b4, s4⟩ := sq_err b3 (hp _).1 (hp _).2 s3
    rw [← pow_mul] at s4
    obtain ⟨b5, s5⟩ := sq_err b4 (hp _).1 (hp _).2 s4
    rw [← pow_mul] at s5
    obtain ⟨b6, s6⟩ := sq_err b5 (hp _).1 (hp _).2 s5
    rw [← pow_mul] at s6
    obtain ⟨b7, s7⟩ := sq_err b6 (hp _).1 (hp _).2 s6
    rw [← pow_mul] at s7
    obtain ⟨b8, s8⟩ := sq_err b7 (hp _).1 (hp _).2 s7
    rw [← pow_mul] at s8
    obtain ⟨b9, s9⟩ := sq_err b8 (hp _).1 (hp _).2 s8
    rw [← pow_mul] at s9
    have hv9 : v ^ (2 * 2 * 2 * 2 * 2 * 2 * 2 * 2 * 2) = exp (-((y : ℝ) / sc)) := by
      rw [hv, ← exp_nat_mul]
      congr 1
      push_cast
      ring
    rw [hv9] at s9
    refine s9.trans ?_
    have : (1 : ℝ) / sc = 1 / 2 ^ 60 := by unfold sc; norm_num
    rw [this]
    norm_num

/-! ### The sums of Gaussians -/

/-- The coefficients of a row: `a` and `b`. -/
def ca (c : ℕ × ℕ) : ℝ := (c.1 : ℝ) / T
def cb (c : ℕ × ℕ) : ℝ := (c.2 : ℝ) / T

theorem ca_nonneg (c : ℕ × ℕ) : 0 ≤ ca c := by unfold ca; positivity
theorem cb_nonneg (c : ℕ × ℕ) : 0 ≤ cb c := by unfold cb; positivity

/-- `∑ a exp (-b x²)`. -/
def gR (r : List (ℕ × ℕ)) (x : ℝ) : ℝ := (r.map fun c => ca c * exp (-(cb c * x ^ 2))).sum

/-- `∑ a b exp (-b x²)`. -/
def sR (r : List (ℕ × ℕ)) (x : ℝ) : ℝ := (r.map fun c => cb c * (ca c * exp (-(cb c * x ^ 2)))).sum

theorem T_pos : (0 : ℝ) < (T : ℝ) := by unfold T; norm_num
theorem U_pos : (0 : ℝ) < (U : ℝ) := by unfold U; norm_num
theorem U_sq : (U : ℝ) ^ 2 = sc := by unfold U sc; norm_num

/-- One term. -/
theorem term_err (q X : ℕ) : |(expN (q * (X * X) / T) : ℝ) / sc - exp (-((q : ℝ) / T * ((X : ℝ) / U) ^ 2))| ≤ 1 / 2 ^ 43 := by
  have hs := sc_pos
  have hT := T_pos
  have hU := U_pos
  have h := expN_err (q * (X * X) / T)
  obtain ⟨f1, f2⟩ := div_floor (q * (X * X)) T (by unfold T; norm_num)
  push_cast at f1 f2
  have e : (q : ℝ) / T * ((X : ℝ) / U) ^ 2 = (q * (X * X) / T : ℝ) / sc := by
    rw [div_pow, U_sq]; field_simp
  rw [e]
  have g1 : ((q * (X * X) / T : ℕ) : ℝ) / sc ≤ (q * (X * X) / T : ℝ) / sc := by gcongr
  have g2 : (q * (X * X) / T : ℝ) / sc ≤ ((q * (X * X) / T : ℕ) : ℝ) / sc + 1 / sc := by
    rw [← add_div]; gcongr
  obtain ⟨u, hu⟩ : ∃ u : ℝ, u = ((q * (X * X) / T : ℕ) : ℝ) / sc := ⟨_, rfl⟩
  obtain ⟨w, hw⟩ : ∃ w : ℝ, w = (q * (X * X) / T : ℝ) / sc := ⟨_, rfl⟩
  rw [← hu] at h g1 g2
  rw [← hw] at g1 g2 ⊢
  have hu0 : 0 ≤ u := by rw [hu]; positivity
  have k1 : exp (-w) ≤ exp (-u) := exp_le_exp.mpr (by linarith)
  have k2 : exp (-u) ≤ 1 := exp_le_one_iff.mpr (by linarith)
  have k3 : exp (-w) = exp (-u) * exp (-(w - u)) := by rw [← exp_add]; congr 1; ring
  have k4 := add_one_le_exp (-(w - u))
  have k5 : 0 < exp (-u) := exp_pos _
  have k6 : exp (-u) - exp (-w) ≤ 1 / sc := by nlinarith
  have hsc : (1 : ℝ) / sc = 1 / 2 ^ 60 := by unfold sc; norm_num
  have h' := abs_le.mp h
  rw [hsc] at k6
  rw [abs_le]
  constructor
  · have : (1 : ℝ) / 2 ^ 43 = 1 / 2 ^ 44 + 1 / 2 ^ 44 := by norm_num
    have : (1 : ℝ) / 2 ^ 60 ≤ 1 / 2 ^ 44 := by norm_num
    linarith
  · have : (1 : ℝ) / 2 ^ 43 = 1 / 2 ^ 44 + 1 / 2 ^ 44 := by norm_num
    have : (1 : ℝ) / 2 ^ 60 ≤ 1 / 2 ^ 44 := by norm_num
    linarith

theorem gSum_err (r : List (ℕ × ℕ)) (X : ℕ) :
    |(gSum r (X * X) : ℝ) / T / sc - gR r ((X : ℝ) / U)| ≤ (r.map ca).sum * (1 / 2 ^ 43) := by
  induction r with
  | nil => simp [gSum, gR]
  | cons c r ih =>
    have h := term_err c.2 X
    have ha := ca_nonneg c
    have e : (gSum (c :: r) (X * X) : ℝ) / T / sc - gR (c :: r) ((X : ℝ) / U)
        = ca c * ((expN (c.2 * (X * X) / T) : ℝ) / sc - exp (-((c.2 : ℝ) / T * ((X : ℝ) / U) ^ 2)))
          + ((gSum r (X * X) : ℝ) / T / sc - gR r ((X : ℝ) / U)) := by
      simp only [gSum, gR, List.map_cons, List.sum_cons]
      push_cast
      unfold ca cb
      ring
    rw [e, List.map_cons, List.sum_cons, add_mul]
    refine (abs_add_le _ _).trans (add_le_add ?_ ih)
    rw [abs_mul, abs_of_nonneg ha]
    gcongr

theorem sSum_err (r : List (ℕ × ℕ)) (X : ℕ) :
    |(sSum r (X * X) : ℝ) / (T * T) / sc - sR r ((X : ℝ) / U)| ≤ (r.map fun c => cb c * ca c).sum * (1 / 2 ^ 43) := by
  induction r with
  | nil => simp [sSum, sR]
  | cons c r ih =>
    have h := term_err c.2 X
    have ha := ca_nonneg c
    have hb := cb_nonneg c
    have e : (sSum (c :: r) (X * X) : ℝ) / (T * T) / sc - sR (c :: r) ((X : ℝ) / U)
        = cb c * ca c * ((expN (c.2 * (X * X) / T) : ℝ) / sc - exp (-((c.2 : ℝ) / T * ((X : ℝ) / U) ^ 2)))
          + ((sSum r (X * X) : ℝ) / (T * T) / sc - sR r ((X : ℝ) / U)) := by
      simp only [sSum, sR, List.map_cons, List.sum_cons]
      push_cast
      unfold ca cb
      ring
    rw [e, List.map_cons, List.sum_cons, add_mul]
    refine (abs_add_le _ _).trans (add_le_add ?_ ih)
    rw [abs_mul, abs_of_nonneg (mul_nonneg hb ha)]
    gcongr

theorem gR_nonneg (r : List (ℕ × ℕ)) (x : ℝ) : 0 ≤ gR r x :=
  List.sum_nonneg (by simp only [List.mem_map]; rintro _ ⟨c, -, rfl⟩; exact mul_nonneg (ca_nonneg c) (exp_pos _).le)

theorem sR_nonneg (r : List (ℕ × ℕ)) (x : ℝ) : 0 ≤ sR r x :=
  List.sum_nonneg (by
    simp only [List.mem_map]; rintro _ ⟨c, -, rfl⟩
    exact mul_nonneg (cb_nonneg c) (mul_nonneg (ca_nonneg c) (exp_pos _).le))

/-- Bounds of the change of the sum. -/
theorem gR_change (r : List (ℕ × ℕ)) {x t y : ℝ} (hx : 0 ≤ x) (hxt : x ≤ t) (hty : t ≤ y) :
    gR r x - gR r t ≤ 2 * y * (t - x) * sR r x ∧ 2 * x * (t - x) * sR r y ≤ gR r x - gR r t := by
  induction r with
  | nil => simp [gR, sR]
  | cons c r ih =>
    simp only [gR, sR, List.map_cons, List.sum_cons] at ih ⊢
    have ha := ca_nonneg c
    have hb := cb_nonneg c
    obtain ⟨b, hbd⟩ : ∃ b, b = cb c := ⟨_, rfl⟩
    rw [← hbd] at hb ⊢
    have hd : 0 ≤ t ^ 2 - x ^ 2 := by nlinarith
    have h1 : exp (-(b * x ^ 2)) - exp (-(b * t ^ 2)) ≤ b * (2 * y * (t - x)) * exp (-(b * x ^ 2)) := by
      have k3 : exp (-(b * t ^ 2)) = exp (-(b * x ^ 2)) * exp (-(b * (t ^ 2 - x ^ 2))) := by
        rw [← exp_add]; congr 1; ring
      have k4 := add_one_le_exp (-(b * (t ^ 2 - x ^ 2)))
      have k5 := exp_pos (-(b * x ^ 2))
      have k6 : b * (t ^ 2 - x ^ 2) ≤ b * (2 * y * (t - x)) := by
        gcongr
        nlinarith
      nlinarith
    have h2 : b * (2 * x * (t - x)) * exp (-(b * y ^ 2)) ≤ exp (-(b * x ^ 2)) - exp (-(b * t ^ 2)) := by
      have k3 : exp (-(b * x ^ 2)) = exp (-(b * t ^ 2)) * exp (b * (t ^ 2 - x ^ 2)) := by
        rw [← exp_add]; congr 1; ring
      have k4 := add_one_le_exp (b * (t ^ 2 - x ^ 2))
      have k5 := exp_pos (-(b * t ^ 2))
      have k7 : exp (-(b * y ^ 2)) ≤ exp (-(b * t ^ 2)) := by
        apply exp_le_exp.mpr
        have : b * t ^ 2 ≤ b * y ^ 2 := by gcongr; linarith
        linarith
      have k6 : b * (2 * x * (t - x)) ≤ b * (t ^ 2 - x ^ 2) := by
        gcongr
        nlinarith
      have k8 : 0 ≤ b * (2 * x * (t - x)) := by
        have : 0 ≤ t - x := by linarith
        positivity
      calc b * (2 * x * (t - x)) * exp (-(b * y ^ 2)) ≤ b * (t ^ 2 - x ^ 2) * exp (-(b * t ^ 2)) :=
            mul_le_mul k6 k7 (exp_pos _).le (k8.trans k6)
        _ ≤ _ := by rw [k3]; nlinarith
    have h1' := mul_le_mul_of_nonneg_left h1 ha
    have h2' := mul_le_mul_of_nonneg_left h2 ha
    constructor
    · linarith [ih.1]
    · linarith [ih.2]

/-! ### The integral of the Gaussian -/

/-- `∫ exp (-t²)` from 0. -/
def J (x : ℝ) : ℝ := ∫ t in (0 : ℝ)..x, exp (-t ^ 2)

theorem gauss_int (a b : ℝ) : IntervalIntegrable (fun t : ℝ => exp (-t ^ 2)) volume a b :=
  (by fun_prop : Continuous fun t : ℝ => exp (-t ^ 2)).intervalIntegrable _ _

theorem J_sub (a b : ℝ) : J b - J a = ∫ t in a..b, exp (-t ^ 2) :=
  intervalIntegral.integral_interval_sub_left (gauss_int 0 b) (gauss_int 0 a)

theorem J_change {x t y : ℝ} (hx : 0 ≤ x) (hxt : x ≤ t) (hty : t ≤ y) :
    (t - x) * exp (-y ^ 2) ≤ J t - J x ∧ J t - J x ≤ (t - x) * exp (-x ^ 2) := by
  rw [J_sub]
  constructor
  · have := intervalIntegral.integral_mono_on hxt intervalIntegrable_const (gauss_int x t)
      (f := fun _ => exp (-y ^ 2)) (fun s hs => exp_le_exp.mpr (by have := hs.1; have := hs.2; nlinarith))
    simpa using this
  · have := intervalIntegral.integral_mono_on hxt (gauss_int x t) intervalIntegrable_const
      (g := fun _ => exp (-x ^ 2)) (fun s hs => exp_le_exp.mpr (by have := hs.1; have := hs.2; nlinarith))
    simpa using this

theorem cosh_ge (y : ℝ) : 1 + y ^ 2 / 2 ≤ cosh y := by
  have := cosh_sq' (y / 2)
  have h2 : cosh y = 2 * sinh (y / 2) ^ 2 + 1 := by
    have := cosh_two_mul (y / 2)
    rw [show 2 * (y / 2) = y by ring] at this
    rw [this, cosh_sq]; ring
  have h3 : (y / 2) ^ 2 ≤ sinh (y / 2) ^ 2 := by
    rw [sq_le_sq]
    rcases le_total 0 (y / 2) with h | h
    · have := self_le_sinh_iff.mpr h
      rw [abs_of_nonneg h, abs_of_nonneg (by linarith)]; exact this
    · have := sinh_le_self_iff.mpr h
      rw [abs_of_nonpos h, abs_of_nonpos (by linarith)]; linarith
  nlinarith

/-- The integral over an interval of half width `r` around `m`. -/
theorem mid_eq (m r : ℝ) : ∫ t in m - r..m + r, exp (-t ^ 2) = exp (-m ^ 2) * ∫ s in -r..r, exp (-s ^ 2) * cosh (2 * m * s) := by
  have e1 : ∫ t in m - r..m + r, exp (-t ^ 2) = ∫ s in -r..r, exp (-(m + s) ^ 2) := by
    rw [intervalIntegral.integral_comp_add_left (fun t => exp (-t ^ 2)) m]
    congr 1
  have e2 : ∫ s in -r..r, exp (-(m + s) ^ 2) = ∫ s in -r..r, exp (-(m - s) ^ 2) := by
    have := intervalIntegral.integral_comp_neg (a := -r) (b := r) (fun s => exp (-(m + s) ^ 2))
    rw [neg_neg] at this
    rw [← this]
    congr 1
  have i1 : IntervalIntegrable (fun s : ℝ => exp (-(m + s) ^ 2)) volume (-r) r :=
    (by fun_prop : Continuous fun s : ℝ => exp (-(m + s) ^ 2)).intervalIntegrable _ _
  have i2 : IntervalIntegrable (fun s : ℝ => exp (-(m - s) ^ 2)) volume (-r) r :=
    (by fun_prop : Continuous fun s : ℝ => exp (-(m - s) ^ 2)).intervalIntegrable _ _
  have e3 : ∫ s in -r..r, (exp (-(m + s) ^ 2) + exp (-(m - s) ^ 2)) = 2 * ∫ s in -r..r, exp (-(m + s) ^ 2) := by
    rw [intervalIntegral.integral_add i1 i2, ← e2]; ring
  have e4 : ∫ s in -r..r, (exp (-(m + s) ^ 2) + exp (-(m - s) ^ 2)) = ∫ s in -r..r, 2 * exp (-m ^ 2) * (exp (-s ^ 2) * cosh (2 * m * s)) := by
    congr 1
    funext s
    rw [cosh_eq, show -(m + s) ^ 2 = -m ^ 2 + -s ^ 2 + -(2 * m * s) by ring, show -(m - s) ^ 2 = -m ^ 2 + -s ^ 2 + (2 * m * s) by ring,
      exp_add, exp_add, exp_add, exp_add]
    ring
  rw [e4, intervalIntegral.integral_const_mul] at e3
  rw [e1]
  linarith

theorem poly_int (A B C r : ℝ) : ∫ s in -r..r, (A + B * s ^ 2 + C * s ^ 4) = 2 * r * (A + B * r ^ 2 / 3 + C * r ^ 4 / 5) := by
  have h1 : IntervalIntegrable (fun s : ℝ => A + B * s ^ 2) volume (-r) r :=
    (by fun_prop : Continuous fun s : ℝ => A + B * s ^ 2).intervalIntegrable _ _
  have h2 : IntervalIntegrable (fun s : ℝ => C * s ^ 4) volume (-r) r :=
    (by fun_prop : Continuous fun s : ℝ => C * s ^ 4).intervalIntegrable _ _
  have h3 : IntervalIntegrable (fun s : ℝ => B * s ^ 2) volume (-r) r :=
    (by fun_prop : Continuous fun s : ℝ => B * s ^ 2).intervalIntegrable _ _
  rw [intervalIntegral.integral_add h1 h2, intervalIntegral.integral_add intervalIntegrable_const h3,
    intervalIntegral.integral_const_mul, intervalIntegral.integral_const_mul, integral_pow, integral_pow, intervalIntegral.integral_const, smul_eq_mul]
  push_cast
  ring

theorem mid_bounds {m r : ℝ} (hr : 0 ≤ r) (h : (2 * m ^ 2 + 1) * r ^ 2 ≤ 1) :
    exp (-m ^ 2) * (2 * r * (1 + (2 * m ^ 2 - 1) * r ^ 2 / 3 + -(2 * m ^ 2) * r ^ 4 / 5)) ≤ J (m + r) - J (m - r) ∧
    J (m + r) - J (m - r) ≤ exp (-m ^ 2) * (2 * r * (1 + (2 * m ^ 2 - 1) * r ^ 2 / 3 + (4 * m ^ 4 + 1) * r ^ 4 / 5)) := by
  rw [J_sub, mid_eq, ← poly_int, ← poly_int]
  have hi : IntervalIntegrable (fun s : ℝ => exp (-s ^ 2) * cosh (2 * m * s)) volume (-r) r :=
    (by fun_prop : Continuous fun s : ℝ => exp (-s ^ 2) * cosh (2 * m * s)).intervalIntegrable _ _
  have hp : ∀ A B C : ℝ, IntervalIntegrable (fun s : ℝ => A + B * s ^ 2 + C * s ^ 4) volume (-r) r := fun A B C =>
    (by fun_prop : Continuous fun s : ℝ => A + B * s ^ 2 + C * s ^ 4).intervalIntegrable _ _
  have hs2 : ∀ s ∈ Icc (-r) r, s ^ 2 ≤ r ^ 2 := fun s hs => by
    have := hs.1; have := hs.2
    nlinarith
  have hs3 : ∀ s ∈ Icc (-r) r, (2 * m ^ 2 + 1) * s ^ 2 ≤ 1 := fun s hs =>
    le_trans (mul_le_mul_of_nonneg_left (hs2 s hs) (by positivity)) h
  constructor
  · refine mul_le_mul_of_nonneg_left (intervalIntegral.integral_mono_on (by linarith) (hp _ _ _) hi fun s hs => ?_) (exp_pos _).le
    have k1 := add_one_le_exp (-s ^ 2)
    have k2 := cosh_ge (2 * m * s)
    have k3 : 0 ≤ 1 - s ^ 2 := by nlinarith [hs3 s hs, mul_nonneg (sq_nonneg m) (sq_nonneg s)]
    have k4 : (1 - s ^ 2) * (1 + (2 * m * s) ^ 2 / 2) ≤ exp (-s ^ 2) * cosh (2 * m * s) :=
      mul_le_mul (by linarith) k2 (by positivity) (exp_pos _).le
    nlinarith
  · refine mul_le_mul_of_nonneg_left (intervalIntegral.integral_mono_on (by linarith) hi (hp _ _ _) fun s hs => ?_) (exp_pos _).le
    have k1 := cosh_le_exp_half_sq (2 * m * s)
    have k2 : exp (-s ^ 2) * cosh (2 * m * s) ≤ exp ((2 * m ^ 2 - 1) * s ^ 2) := by
      calc exp (-s ^ 2) * cosh (2 * m * s) ≤ exp (-s ^ 2) * exp ((2 * m * s) ^ 2 / 2) := by gcongr
        _ = _ := by rw [← exp_add]; congr 1; ring
    have k3 : |(2 * m ^ 2 - 1) * s ^ 2| ≤ 1 := by
      have := hs3 s hs
      rw [abs_le]
      constructor <;> nlinarith [mul_nonneg (sq_nonneg m) (sq_nonneg s), sq_nonneg s]
    have k4 := (abs_le.mp (abs_exp_sub_one_sub_id_le k3)).2
    have k5 : ((2 * m ^ 2 - 1) * s ^ 2) ^ 2 ≤ (4 * m ^ 4 + 1) * s ^ 4 := by
      have : 0 ≤ m ^ 2 * s ^ 4 := by positivity
      nlinarith
    linarith

/-! ### Soundness -/

/-- `2 / √π`. -/
theorem c_bounds : (cL : ℝ) / cD ≤ 2 / √π ∧ 2 / √π ≤ (cH : ℝ) / cD := by
  have hp := Real.pi_pos
  have h1 := Real.pi_gt_d20
  have h2 := Real.pi_lt_d20
  have hs : 0 < √π := Real.sqrt_pos.mpr hp
  have e : (2 / √π) ^ 2 = 4 / π := by rw [div_pow, Real.sq_sqrt hp.le]; norm_num
  unfold cL cH cD
  constructor
  · apply le_of_sq_le_sq _ (by positivity)
    rw [e, le_div_iff₀ hp]
    push_cast
    nlinarith
  · apply le_of_sq_le_sq _ (by positivity)
    rw [e, div_le_iff₀ hp]
    push_cast
    nlinarith

theorem sub_ge (a b : ℕ) : (a : ℝ) - b ≤ ((a - b : ℕ) : ℝ) := by
  rcases le_total b a with h | h
  · rw [Nat.cast_sub h]
  · rw [Nat.sub_eq_zero_of_le h]
    have : (a : ℝ) ≤ b := by exact_mod_cast h
    push_cast; linarith

theorem sub_le_of {a b : ℕ} {v : ℝ} (h0 : 0 ≤ v) (h : (a : ℝ) - b ≤ v) : ((a - b : ℕ) : ℝ) ≤ v := by
  rcases le_total b a with hab | hab
  · rw [Nat.cast_sub hab]; exact h
  · rw [Nat.sub_eq_zero_of_le hab]; simpa using h0

/-- Conditions on the coefficients. -/
structure Small (r : List (ℕ × ℕ)) : Prop where
  a : (r.map ca).sum ≤ 3 / 2
  b : (r.map fun c => cb c * ca c).sum ≤ 2097151

variable {r : List (ℕ × ℕ)}

theorem g_err (h : Small r) (X : ℕ) : |((gSum r (X * X) / T : ℕ) : ℝ) - sc * gR r ((X : ℝ) / U)| ≤ 262144 := by
  have hs := sc_pos
  have hsv : (sc : ℝ) = 2 ^ 60 := by unfold sc; norm_num
  have h1 := gSum_err r X
  obtain ⟨f1, f2⟩ := div_floor (gSum r (X * X)) T (by unfold T; norm_num)
  have h2 : (r.map ca).sum * (1 / 2 ^ 43) ≤ 3 / 2 * (1 / 2 ^ 43) := by gcongr; exact h.a
  have h3 := abs_le.mp (h1.trans h2)
  obtain ⟨w, hw⟩ : ∃ w : ℝ, w = (gSum r (X * X) : ℝ) / T := ⟨_, rfl⟩
  rw [← hw] at f1 f2 h3
  have h4 : sc * (w / sc) = w := by field_simp
  have h5 : sc * (w / sc - gR r ((X : ℝ) / U)) ≤ sc * (3 / 2 * (1 / 2 ^ 43)) := mul_le_mul_of_nonneg_left h3.2 hs.le
  have h6 : sc * (-(3 / 2 * (1 / 2 ^ 43))) ≤ sc * (w / sc - gR r ((X : ℝ) / U)) := mul_le_mul_of_nonneg_left h3.1 hs.le
  rw [mul_sub, h4] at h5 h6
  have h7 : (sc : ℝ) * (3 / 2 * (1 / 2 ^ 43)) = 196608 := by rw [hsv]; norm_num
  rw [h7] at h5
  rw [mul_neg, h7] at h6
  rw [abs_le]
  constructor <;> linarith

theorem s_err (h : Small r) (X : ℕ) : |((sSum r (X * X) / (T * T) : ℕ) : ℝ) - sc * sR r ((X : ℝ) / U)| ≤ 274877906944 := by
  have hs := sc_pos
  have hsv : (sc : ℝ) = 2 ^ 60 := by unfold sc; norm_num
  have h1 := sSum_err r X
  obtain ⟨f1, f2⟩ := div_floor (sSum r (X * X)) (T * T) (by unfold T; norm_num)
  push_cast at f1 f2
  have h2 : (r.map fun c => cb c * ca c).sum * (1 / 2 ^ 43) ≤ 2097151 * (1 / 2 ^ 43) := by gcongr; exact h.b
  have h3 := abs_le.mp (h1.trans h2)
  obtain ⟨w, hw⟩ : ∃ w : ℝ, w = (sSum r (X * X) : ℝ) / (T * T) := ⟨_, rfl⟩
  rw [← hw] at f1 f2 h3
  have h4 : sc * (w / sc) = w := by field_simp
  have h5 : sc * (w / sc - sR r ((X : ℝ) / U)) ≤ sc * (2097151 * (1 / 2 ^ 43)) := mul_le_mul_of_nonneg_left h3.2 hs.le
  have h6 : sc * (-(2097151 * (1 / 2 ^ 43))) ≤ sc * (w / sc - sR r ((X : ℝ) / U)) := mul_le_mul_of_nonneg_left h3.1 hs.le
  rw [mul_sub, h4] at h5 h6
  have h7 : (sc : ℝ) * (2097151 * (1 / 2 ^ 43)) = 274877775872 := by rw [hsv]; norm_num
  rw [h7] at h5
  rw [mul_neg, h7] at h6
  rw [abs_le]
  constructor <;> linarith

theorem e_err (X : ℕ) : |(expN (X * X) : ℝ) - sc * exp (-((X : ℝ) / U) ^ 2)| ≤ 65536 := by
  have hs := sc_pos
  have hsv : (sc : ℝ) = 2 ^ 60 := by unfold sc; norm_num
  have h := abs_le.mp (expN_err (X * X))
  have e : (((X * X : ℕ) : ℝ)) / sc = ((X : ℝ) / U) ^ 2 := by
    rw [div_pow, U_sq]; push_cast; ring
  rw [e] at h
  have h4 : sc * ((expN (X * X) : ℝ) / sc) = expN (X * X) := by field_simp
  have h5 := mul_le_mul_of_nonneg_left h.2 hs.le
  have h6 := mul_le_mul_of_nonneg_left h.1 hs.le
  rw [mul_sub, h4] at h5 h6
  have h7 : (sc : ℝ) * (1 / 2 ^ 44) = 65536 := by rw [hsv]; norm_num
  rw [h7] at h5
  rw [mul_neg, h7] at h6
  rw [abs_le]
  constructor <;> linarith

/-- The difference. -/
def D (r : List (ℕ × ℕ)) (t : ℝ) : ℝ := 1 - gR r t - 2 / √π * J t

/-- The bound on a cell from bounds of the slope. -/
theorem cell_real {x t y P Q : ℝ} (hx : 0 ≤ x) (hxt : x ≤ t) (hty : t ≤ y) (hP : 0 ≤ P) (hQ : 0 ≤ Q)
    (h1 : 2 * y * sR r x - 2 / √π * exp (-y ^ 2) ≤ P) (h2 : 2 / √π * exp (-x ^ 2) - 2 * x * sR r y ≤ Q) :
    D r t ≤ D r x + (y - x) * P ∧ D r x - (y - x) * Q ≤ D r t := by
  obtain ⟨g1, g2⟩ := gR_change r hx hxt hty
  obtain ⟨j1, j2⟩ := J_change hx hxt hty
  have hc : 0 ≤ 2 / √π := by positivity
  obtain ⟨c, hcd⟩ : ∃ c, c = 2 / √π := ⟨_, rfl⟩
  rw [← hcd] at hc h1 h2
  have j1' := mul_le_mul_of_nonneg_left j1 hc
  have j2' := mul_le_mul_of_nonneg_left j2 hc
  have ht : 0 ≤ t - x := by linarith
  have p1 : (t - x) * (2 * y * sR r x - c * exp (-y ^ 2)) ≤ (y - x) * P :=
    (mul_le_mul_of_nonneg_left h1 ht).trans (mul_le_mul_of_nonneg_right (by linarith) hP)
  have p2 : (t - x) * (c * exp (-x ^ 2) - 2 * x * sR r y) ≤ (y - x) * Q :=
    (mul_le_mul_of_nonneg_left h2 ht).trans (mul_le_mul_of_nonneg_right (by linarith) hQ)
  unfold D
  rw [← hcd]
  constructor
  · linarith
  · linarith

theorem J_mono {x y : ℝ} (hx : 0 ≤ x) (h : x ≤ y) : J x ≤ J y := by
  have := (J_change hx h le_rfl).1
  have h2 : 0 ≤ (y - x) * exp (-y ^ 2) := mul_nonneg (by linarith) (exp_pos _).le
  linarith

theorem incL_le {M R X : ℕ} (hM : M = X + R) (hc : (2 * M ^ 2 + U ^ 2) * R ^ 2 ≤ U ^ 4) :
    (incL M (2 * R) (expN (M * M)) : ℝ) ≤ sc * (J (((X + 2 * R : ℕ) : ℝ) / U) - J ((X : ℝ) / U)) := by
  have hs := sc_pos
  have hU := U_pos
  obtain ⟨m, hm⟩ : ∃ m : ℝ, m = (M : ℝ) / U := ⟨_, rfl⟩
  obtain ⟨q, hq⟩ : ∃ q : ℝ, q = (R : ℝ) / U := ⟨_, rfl⟩
  have hq0 : 0 ≤ q := by rw [hq]; positivity
  have hMr : (M : ℝ) = X + R := by rw [hM]; push_cast; ring
  have ey : ((X + 2 * R : ℕ) : ℝ) / U = m + q := by rw [hm, hq, hMr]; push_cast; ring
  have ex : (X : ℝ) / U = m - q := by rw [hm, hq, hMr]; ring
  have hcr : (2 * (M : ℝ) ^ 2 + U ^ 2) * R ^ 2 ≤ U ^ 4 := by exact_mod_cast hc
  have hcond : (2 * m ^ 2 + 1) * q ^ 2 ≤ 1 := by
    have : (2 * m ^ 2 + 1) * q ^ 2 = (2 * (M : ℝ) ^ 2 + U ^ 2) * R ^ 2 / U ^ 4 := by
      rw [hm, hq]; field_simp
    rw [this, div_le_one (by positivity)]
    exact hcr
  obtain ⟨b1, b2⟩ := mid_bounds hq0 hcond
  rw [ey, ex]
  have hmono : 0 ≤ J (m + q) - J (m - q) := by
    have : 0 ≤ m - q := by rw [← ex]; positivity
    linarith [J_mono this (by linarith : m - q ≤ m + q)]
  have he := abs_le.mp (e_err M)
  rw [← hm] at he
  have hE : ((expN (M * M) - 65536 : ℕ) : ℝ) ≤ sc * exp (-m ^ 2) :=
    sub_le_of (by positivity) (by push_cast; linarith)
  unfold incL
  obtain ⟨fl, hfl⟩ : ∃ fl : ℕ, fl = 240 * U ^ 4 + 40 * M ^ 2 * (2 * R) ^ 2 - (20 * U ^ 2 * (2 * R) ^ 2 + (6 * M ^ 2 * (2 * R) ^ 4 / U ^ 2 + 1)) := ⟨_, rfl⟩
  rw [← hfl]
  obtain ⟨f1, f2⟩ := div_floor (6 * M ^ 2 * (2 * R) ^ 4) (U ^ 2) (by unfold U; norm_num)
  refine (Nat.cast_div_le).trans ?_
  rcases le_total (240 * U ^ 4 + 40 * M ^ 2 * (2 * R) ^ 2) (20 * U ^ 2 * (2 * R) ^ 2 + (6 * M ^ 2 * (2 * R) ^ 4 / U ^ 2 + 1)) with hle | hle
  · rw [Nat.sub_eq_zero_of_le hle] at hfl
    rw [hfl]
    simp only [mul_zero, Nat.cast_zero, zero_div]
    exact mul_nonneg hs.le hmono
  · have hfl' : (fl : ℝ) ≤ 240 * U ^ 4 * (1 + (2 * m ^ 2 - 1) * q ^ 2 / 3 + -(2 * m ^ 2) * q ^ 4 / 5) := by
      have e : 240 * (U : ℝ) ^ 4 * (1 + (2 * m ^ 2 - 1) * q ^ 2 / 3 + -(2 * m ^ 2) * q ^ 4 / 5)
          = 240 * (U : ℝ) ^ 4 + 40 * (M : ℝ) ^ 2 * (2 * R) ^ 2 - (20 * (U : ℝ) ^ 2 * (2 * R) ^ 2 + 6 * (M : ℝ) ^ 2 * (2 * R) ^ 4 / U ^ 2) := by
        rw [hm, hq]; field_simp; ring
      rw [e, hfl, Nat.cast_sub hle]
      push_cast at f2 ⊢
      linarith
    have hfl0 : (0 : ℝ) ≤ fl := Nat.cast_nonneg _
    have key : ((expN (M * M) - 65536 : ℕ) : ℝ) * (2 * q * (fl / (240 * U ^ 4))) ≤ sc * (J (m + q) - J (m - q)) := by
      have k1 : (fl : ℝ) / (240 * U ^ 4) ≤ 1 + (2 * m ^ 2 - 1) * q ^ 2 / 3 + -(2 * m ^ 2) * q ^ 4 / 5 := by
        rw [div_le_iff₀ (by positivity)]; linarith
      calc ((expN (M * M) - 65536 : ℕ) : ℝ) * (2 * q * (fl / (240 * U ^ 4)))
          ≤ sc * exp (-m ^ 2) * (2 * q * (1 + (2 * m ^ 2 - 1) * q ^ 2 / 3 + -(2 * m ^ 2) * q ^ 4 / 5)) := by
            apply mul_le_mul hE _ (by positivity) (by positivity)
            exact mul_le_mul_of_nonneg_left k1 (by positivity)
        _ = sc * (exp (-m ^ 2) * (2 * q * (1 + (2 * m ^ 2 - 1) * q ^ 2 / 3 + -(2 * m ^ 2) * q ^ 4 / 5))) := by ring
        _ ≤ _ := mul_le_mul_of_nonneg_left b1 hs.le
    refine le_trans (le_of_eq ?_) key
    obtain ⟨w, hw⟩ : ∃ w : ℕ, w = expN (M * M) - 65536 := ⟨_, rfl⟩
    rw [hq, ← hw]
    push_cast
    field_simp

theorem le_incH {M R X : ℕ} (hM : M = X + R) (hc : (2 * M ^ 2 + U ^ 2) * R ^ 2 ≤ U ^ 4) :
    sc * (J (((X + 2 * R : ℕ) : ℝ) / U) - J ((X : ℝ) / U)) ≤ (incH M (2 * R) (expN (M * M)) : ℝ) := by
  have hs := sc_pos
  have hU := U_pos
  obtain ⟨m, hm⟩ : ∃ m : ℝ, m = (M : ℝ) / U := ⟨_, rfl⟩
  obtain ⟨q, hq⟩ : ∃ q : ℝ, q = (R : ℝ) / U := ⟨_, rfl⟩
  have hq0 : 0 ≤ q := by rw [hq]; positivity
  have hMr : (M : ℝ) = X + R := by rw [hM]; push_cast; ring
  have ey : ((X + 2 * R : ℕ) : ℝ) / U = m + q := by rw [hm, hq, hMr]; push_cast; ring
  have ex : (X : ℝ) / U = m - q := by rw [hm, hq, hMr]; ring
  have hcr : (2 * (M : ℝ) ^ 2 + U ^ 2) * R ^ 2 ≤ U ^ 4 := by exact_mod_cast hc
  have hcond : (2 * m ^ 2 + 1) * q ^ 2 ≤ 1 := by
    have : (2 * m ^ 2 + 1) * q ^ 2 = (2 * (M : ℝ) ^ 2 + U ^ 2) * R ^ 2 / U ^ 4 := by
      rw [hm, hq]; field_simp
    rw [this, div_le_one (by positivity)]
    exact hcr
  obtain ⟨b1, b2⟩ := mid_bounds hq0 hcond
  rw [ey, ex]
  have he := abs_le.mp (e_err M)
  rw [← hm] at he
  have hE : sc * exp (-m ^ 2) ≤ (expN (M * M) : ℝ) + 65536 := by linarith
  unfold incH
  obtain ⟨fh, hfh⟩ : ∃ fh : ℕ, fh = 240 * U ^ 4 + 40 * M ^ 2 * (2 * R) ^ 2 + (3 * (4 * M ^ 4 + U ^ 4) * (2 * R) ^ 4 / U ^ 4 + 1) - 20 * U ^ 2 * (2 * R) ^ 2 := ⟨_, rfl⟩
  rw [← hfh]
  obtain ⟨f1, f2⟩ := div_floor (3 * (4 * M ^ 4 + U ^ 4) * (2 * R) ^ 4) (U ^ 4) (by unfold U; norm_num)
  have hfh' : 240 * U ^ 4 * (1 + (2 * m ^ 2 - 1) * q ^ 2 / 3 + (4 * m ^ 4 + 1) * q ^ 4 / 5) ≤ (fh : ℝ) := by
    have e : 240 * (U : ℝ) ^ 4 * (1 + (2 * m ^ 2 - 1) * q ^ 2 / 3 + (4 * m ^ 4 + 1) * q ^ 4 / 5)
        = 240 * (U : ℝ) ^ 4 + 40 * (M : ℝ) ^ 2 * (2 * R) ^ 2 + 3 * (4 * (M : ℝ) ^ 4 + U ^ 4) * (2 * R) ^ 4 / U ^ 4 - 20 * (U : ℝ) ^ 2 * (2 * R) ^ 2 := by
      rw [hm, hq]; field_simp; ring
    rw [e, hfh]
    refine le_trans ?_ (sub_ge _ _)
    push_cast at f2 ⊢
    linarith
  have key : sc * (J (m + q) - J (m - q)) ≤ ((expN (M * M) : ℝ) + 65536) * (2 * q * (fh / (240 * U ^ 4))) := by
    have k1 : 1 + (2 * m ^ 2 - 1) * q ^ 2 / 3 + (4 * m ^ 4 + 1) * q ^ 4 / 5 ≤ (fh : ℝ) / (240 * U ^ 4) := by
      rw [le_div_iff₀ (by positivity)]; linarith
    calc sc * (J (m + q) - J (m - q))
        ≤ sc * (exp (-m ^ 2) * (2 * q * (1 + (2 * m ^ 2 - 1) * q ^ 2 / 3 + (4 * m ^ 4 + 1) * q ^ 4 / 5))) := mul_le_mul_of_nonneg_left b2 hs.le
      _ ≤ sc * (exp (-m ^ 2) * (2 * q * ((fh : ℝ) / (240 * U ^ 4)))) := by
          refine mul_le_mul_of_nonneg_left (mul_le_mul_of_nonneg_left (mul_le_mul_of_nonneg_left k1 (by positivity)) (exp_pos _).le) hs.le
      _ = sc * exp (-m ^ 2) * (2 * q * ((fh : ℝ) / (240 * U ^ 4))) := by ring
      _ ≤ _ := by gcongr
  refine key.trans ?_
  obtain ⟨d1, d2⟩ := div_floor ((expN (M * M) + 65536) * (2 * R) * fh) (240 * U ^ 5) (by unfold U; norm_num)
  have e : ((expN (M * M) : ℝ) + 65536) * (2 * q * (fh / (240 * U ^ 4))) = (((expN (M * M) + 65536) * (2 * R) * fh : ℕ) : ℝ) / ((240 * U ^ 5 : ℕ) : ℝ) := by
    rw [hq]
    push_cast
    field_simp
  rw [e]
  push_cast at d2 ⊢
  exact d2

theorem cell_ok (h : Small r) {eps X R jl jh : ℕ}
    (hok : cellOk eps X R jl jh (gSum r (X * X) / T) (sSum r (X * X) / (T * T)) (expN (X * X))
      (sSum r ((X + 2 * R) * (X + 2 * R)) / (T * T)) (expN ((X + 2 * R) * (X + 2 * R))) = true)
    (hl : (jl : ℝ) ≤ sc * J ((X : ℝ) / U)) (hh : sc * J ((X : ℝ) / U) ≤ (jh : ℝ)) :
    (∀ t : ℝ, (X : ℝ) / U ≤ t → t ≤ ((X + 2 * R : ℕ) : ℝ) / U → |D r t| ≤ eps / sc) ∧ (2 * (X + R) ^ 2 + U ^ 2) * R ^ 2 ≤ U ^ 4 := by
  have hs := sc_pos
  have hU := U_pos
  unfold cellOk at hok
  rw [Bool.and_eq_true, Bool.and_eq_true, Nat.ble_eq, Nat.ble_eq, Nat.ble_eq] at hok
  obtain ⟨⟨h1, h2⟩, h3⟩ := hok
  refine ⟨fun t ht1 ht2 => ?_, h3⟩
  have hg := abs_le.mp (g_err h X)
  have hsx := abs_le.mp (s_err h X)
  have hsy := abs_le.mp (s_err h (X + 2 * R))
  have hex := abs_le.mp (e_err X)
  have hey := abs_le.mp (e_err (X + 2 * R))
  obtain ⟨c1, c2⟩ := c_bounds
  obtain ⟨c, hc⟩ : ∃ c, c = 2 / √π := ⟨_, rfl⟩
  rw [← hc] at c1 c2
  have hcL : (0 : ℝ) ≤ (cL : ℝ) / cD := by positivity
  have hc0 : 0 ≤ c := hcL.trans c1
  have hcD : 0 < cD := by unfold cD; norm_num
  have hUn : 0 < U := by unfold U; norm_num
  obtain ⟨x, hx⟩ : ∃ x : ℝ, x = (X : ℝ) / U := ⟨_, rfl⟩
  obtain ⟨y, hy⟩ : ∃ y : ℝ, y = ((X + 2 * R : ℕ) : ℝ) / U := ⟨_, rfl⟩
  rw [← hx] at hg hsx hex hl hh ht1
  rw [← hy] at hsy hey ht2
  have hx0 : 0 ≤ x := by rw [hx]; positivity
  have hy0 : 0 ≤ y := by rw [hy]; positivity
  have hyx : y - x = ((2 * R : ℕ) : ℝ) / U := by rw [hx, hy]; push_cast; ring
  have hsR := sR_nonneg r x
  have hsRy := sR_nonneg r y
  have hJ0 : 0 ≤ J x := by
    have := J_mono le_rfl hx0
    simpa [J] using this
  obtain ⟨g, hgd⟩ : ∃ g, g = gSum r (X * X) / T := ⟨_, rfl⟩
  obtain ⟨s, hsd⟩ : ∃ s, s = sSum r (X * X) / (T * T) := ⟨_, rfl⟩
  obtain ⟨s', hsd'⟩ : ∃ s, s = sSum r ((X + 2 * R) * (X + 2 * R)) / (T * T) := ⟨_, rfl⟩
  obtain ⟨e, hed⟩ : ∃ e, e = expN (X * X) := ⟨_, rfl⟩
  obtain ⟨e', hed'⟩ : ∃ e, e = expN ((X + 2 * R) * (X + 2 * R)) := ⟨_, rfl⟩
  rw [← hgd] at h1 h2 hg
  rw [← hsd] at h1 hsx
  rw [← hsd'] at h2 hsy
  rw [← hed] at h2 hex
  rw [← hed'] at h1 hey
  clear hgd hsd hsd' hed hed'
  -- the slope bounds
  obtain ⟨W, hW⟩ : ∃ W : ℕ, W = (2 * (X + 2 * R) * (s + 274877906944) / U + 1) - cL * (e' - 65536) / cD := ⟨_, rfl⟩
  obtain ⟨V, hV⟩ : ∃ V : ℕ, V = (cH * (e + 65536) / cD + 1) - 2 * X * (s' - 274877906944) / U := ⟨_, rfl⟩
  rw [← hW] at h1
  rw [← hV] at h2
  have hWr : sc * (2 * y * sR r x - c * exp (-y ^ 2)) ≤ W := by
    have a1 : sc * (2 * y * sR r x) ≤ ((2 * (X + 2 * R) * (s + 274877906944) / U + 1 : ℕ) : ℝ) := by
      have := (div_floor (2 * (X + 2 * R) * (s + 274877906944)) U hUn).2
      push_cast at this ⊢
      refine le_trans ?_ this
      have e1 : (2 * ((X : ℝ) + 2 * R) * ((s : ℝ) + 274877906944)) / U = 2 * y * ((s : ℝ) + 274877906944) := by
        rw [hy]; push_cast; ring
      rw [e1]
      have : sc * sR r x ≤ (s : ℝ) + 274877906944 := by linarith [hsx.1]
      calc sc * (2 * y * sR r x) = 2 * y * (sc * sR r x) := by ring
        _ ≤ _ := by gcongr
    have a2 : ((cL * (e' - 65536) / cD : ℕ) : ℝ) ≤ sc * (c * exp (-y ^ 2)) := by
      refine (Nat.cast_div_le).trans ?_
      have b1 : ((e' - 65536 : ℕ) : ℝ) ≤ sc * exp (-y ^ 2) := sub_le_of (by positivity) (by push_cast; linarith [hey.2])
      obtain ⟨w, hw⟩ : ∃ w : ℕ, w = e' - 65536 := ⟨_, rfl⟩
      rw [← hw] at b1 ⊢
      push_cast
      calc (cL : ℝ) * w / cD = cL / cD * w := by ring
        _ ≤ c * (sc * exp (-y ^ 2)) := mul_le_mul c1 b1 (Nat.cast_nonneg _) hc0
        _ = _ := by ring
    rw [hW]
    refine le_trans ?_ (sub_ge _ _)
    rw [mul_sub]
    linarith
  have hVr : sc * (c * exp (-x ^ 2) - 2 * x * sR r y) ≤ V := by
    have a1 : sc * (c * exp (-x ^ 2)) ≤ ((cH * (e + 65536) / cD + 1 : ℕ) : ℝ) := by
      have := (div_floor (cH * (e + 65536)) cD hcD).2
      push_cast at this ⊢
      refine le_trans ?_ this
      have b1 : sc * exp (-x ^ 2) ≤ (e : ℝ) + 65536 := by linarith [hex.1]
      calc sc * (c * exp (-x ^ 2)) = c * (sc * exp (-x ^ 2)) := by ring
        _ ≤ (cH : ℝ) / cD * ((e : ℝ) + 65536) := by
            apply mul_le_mul c2 b1 (by positivity) (by positivity)
        _ = _ := by ring
    have a2 : ((2 * X * (s' - 274877906944) / U : ℕ) : ℝ) ≤ sc * (2 * x * sR r y) := by
      refine (Nat.cast_div_le).trans ?_
      have b1 : ((s' - 274877906944 : ℕ) : ℝ) ≤ sc * sR r y := sub_le_of (by positivity) (by push_cast; linarith [hsy.2])
      obtain ⟨w, hw⟩ : ∃ w : ℕ, w = s' - 274877906944 := ⟨_, rfl⟩
      rw [← hw] at b1 ⊢
      push_cast
      calc 2 * (X : ℝ) * w / U = 2 * x * w := by rw [hx]; ring
        _ ≤ 2 * x * (sc * sR r y) := by gcongr
        _ = _ := by ring
    rw [hV]
    refine le_trans ?_ (sub_ge _ _)
    rw [mul_sub]
    linarith
  clear hW hV
  have hP : 2 * y * sR r x - 2 / √π * exp (-y ^ 2) ≤ (W : ℝ) / sc := by
    rw [le_div_iff₀ hs, ← hc]; linarith
  have hQ : 2 / √π * exp (-x ^ 2) - 2 * x * sR r y ≤ (V : ℝ) / sc := by
    rw [le_div_iff₀ hs, ← hc]; linarith
  obtain ⟨k1, k2⟩ := cell_real (r := r) hx0 ht1 ht2 (by positivity) (by positivity) hP hQ
  -- the values at the left end
  have hWh := (div_floor (W * (2 * R)) U hUn).2
  have hVh := (div_floor (V * (2 * R)) U hUn).2
  have hjL : ((cL * jl / cD : ℕ) : ℝ) ≤ sc * (c * J x) := by
    refine (Nat.cast_div_le).trans ?_
    push_cast
    calc (cL : ℝ) * jl / cD = cL / cD * jl := by ring
      _ ≤ c * (sc * J x) := mul_le_mul c1 hl (Nat.cast_nonneg _) hc0
      _ = _ := by ring
  have hjH : sc * (c * J x) ≤ ((cH * jh / cD : ℕ) : ℝ) + 1 := by
    have := (div_floor (cH * jh) cD hcD).2
    refine le_trans ?_ this
    push_cast
    calc sc * (c * J x) = c * (sc * J x) := by ring
      _ ≤ (cH : ℝ) / cD * jh := mul_le_mul c2 hh (by positivity) (by positivity)
      _ = _ := by ring
  have h1r : (sc : ℝ) + 262144 + (((W * (2 * R) / U : ℕ) : ℝ) + 1) ≤ eps + g + ((cL * jl / cD : ℕ) : ℝ) := by exact_mod_cast h1
  have h2r : (g : ℝ) + 262145 + (((cH * jh / cD : ℕ) : ℝ) + 1) + (((V * (2 * R) / U : ℕ) : ℝ) + 1) ≤ eps + sc := by exact_mod_cast h2
  have hD : sc * D r x = sc - sc * gR r x - sc * (c * J x) := by
    unfold D; rw [← hc]; ring
  have eW : (y - x) * ((W : ℝ) / sc) * sc = ((W * (2 * R) : ℕ) : ℝ) / U := by
    rw [hyx]; push_cast; field_simp
  have eV : (y - x) * ((V : ℝ) / sc) * sc = ((V * (2 * R) : ℕ) : ℝ) / U := by
    rw [hyx]; push_cast; field_simp
  rw [abs_le]
  constructor
  · rw [neg_le_iff_add_nonneg]
    have : 0 ≤ sc * (D r t + eps / sc) := by
      have e0 : sc * (D r t + eps / sc) = sc * D r t + eps := by field_simp
      have := mul_le_mul_of_nonneg_left k2 hs.le
      rw [mul_sub, hD] at this
      rw [e0]
      have eV' : sc * ((y - x) * ((V : ℝ) / sc)) = ((V * (2 * R) : ℕ) : ℝ) / U := by rw [← eV]; ring
      rw [eV'] at this
      linarith [hg.1]
    exact nonneg_of_mul_nonneg_right this hs
  · rw [le_div_iff₀ hs]
    have := mul_le_mul_of_nonneg_left k1 hs.le
    rw [mul_add, hD] at this
    have eW' : sc * ((y - x) * ((W : ℝ) / sc)) = ((W * (2 * R) : ℕ) : ℝ) / U := by rw [← eW]; ring
    rw [eW'] at this
    linarith [hg.2]

theorem force_eq {α : Type} (n : ℕ) (k : ℕ → α) : force n k = k n := by cases n <;> rfl

theorem erf_eq (t : ℝ) : erf t = 2 / √π * J t := rfl

theorem erf_le_one (t : ℝ) : erf t ≤ 1 := by
  have b1 : 0 ≤ erfc t := mul_nonneg (by positivity) (setIntegral_nonneg measurableSet_Ioi fun _ _ => (exp_pos _).le)
  rw [erfc_eq] at b1
  linarith

theorem loop_sound (h : Small r) {eps : ℕ} (l : List ℕ) : ∀ {X jl jh : ℕ},
    loop r eps l X jl jh (gSum r (X * X) / T) (sSum r (X * X) / (T * T)) (expN (X * X)) = true →
    (jl : ℝ) ≤ sc * J ((X : ℝ) / U) → sc * J ((X : ℝ) / U) ≤ (jh : ℝ) → ∀ t : ℝ, (X : ℝ) / U ≤ t → |D r t| ≤ eps / sc := by
  have hs := sc_pos
  have hU := U_pos
  induction l with
  | nil =>
    intro X jl jh hok hl hh t ht
    unfold loop at hok
    rw [Bool.and_eq_true, Nat.ble_eq, Nat.ble_eq] at hok
    obtain ⟨h1, h2⟩ := hok
    obtain ⟨x, hx⟩ : ∃ x : ℝ, x = (X : ℝ) / U := ⟨_, rfl⟩
    have hg := abs_le.mp (g_err h X)
    rw [← hx] at hg hl ht
    have hx0 : 0 ≤ x := by rw [hx]; positivity
    have h1r : ((gSum r (X * X) / T : ℕ) : ℝ) + 262145 ≤ eps := by exact_mod_cast h1
    have h2r : (sc : ℝ) ≤ eps + ((cL * jl / cD : ℕ) : ℝ) := by exact_mod_cast h2
    obtain ⟨c1, -⟩ := c_bounds
    have hc0 : 0 ≤ 2 / √π := by positivity
    have hjL : ((cL * jl / cD : ℕ) : ℝ) ≤ sc * (2 / √π * J x) := by
      refine (Nat.cast_div_le).trans ?_
      push_cast
      calc (cL : ℝ) * jl / cD = cL / cD * jl := by ring
        _ ≤ 2 / √π * (sc * J x) := mul_le_mul c1 hl (Nat.cast_nonneg _) hc0
        _ = _ := by ring
    have g1 : sc * gR r x ≤ eps := by linarith [hg.1]
    have g2 : gR r t ≤ gR r x := by
      have := (gR_change r hx0 ht le_rfl).2
      have h3 : 0 ≤ 2 * x * (t - x) * sR r t := mul_nonneg (mul_nonneg (by linarith) (by linarith)) (sR_nonneg r t)
      linarith
    have g3 := gR_nonneg r t
    have j1 : 2 / √π * J x ≤ 2 / √π * J t := mul_le_mul_of_nonneg_left (J_mono hx0 ht) hc0
    have j2 : 2 / √π * J t ≤ 1 := erf_le_one t
    have m1 : gR r x ≤ eps / sc := by rw [le_div_iff₀ hs]; linarith
    have m2 : 1 - eps / sc ≤ 2 / √π * J x := by
      have : (1 - eps / sc) * sc ≤ (2 / √π * J x) * sc := by
        rw [sub_mul, div_mul_cancel₀ _ hs.ne']; linarith
      exact le_of_mul_le_mul_right this hs
    unfold D
    rw [abs_le]
    constructor <;> linarith
  | cons R l ih =>
    intro X jl jh hok hl hh t ht
    unfold loop at hok
    simp only [force_eq] at hok
    rw [Bool.and_eq_true] at hok
    obtain ⟨h1, h2⟩ := hok
    obtain ⟨c1, c2⟩ := cell_ok h h1 hl hh
    rcases le_total t (((X + 2 * R : ℕ) : ℝ) / U) with htl | htl
    · exact c1 t ht htl
    · refine ih h2 ?_ ?_ t htl
      · have := incL_le (X := X) (R := R) rfl c2
        push_cast at this ⊢
        linarith
      · have := le_incH (X := X) (R := R) rfl c2
        push_cast at this ⊢
        linarith

/-- Conditions on the coefficients, decidable. -/
def smallOk (r : List (ℕ × ℕ)) : Bool :=
  Nat.ble (2 * (r.map fun c => c.1).sum) (3 * T) && Nat.ble (r.map fun c => c.2 * c.1).sum (2097151 * (T * T))

theorem small_of (h : smallOk r = true) : Small r := by
  have hT := T_pos
  unfold smallOk at h
  rw [Bool.and_eq_true, Nat.ble_eq, Nat.ble_eq] at h
  have e1 : ∀ r : List (ℕ × ℕ), (r.map ca).sum = ((r.map fun c => c.1).sum : ℕ) / (T : ℝ) := by
    intro r
    induction r with
    | nil => simp
    | cons c r ih => simp only [List.map_cons, List.sum_cons, ih]; unfold ca; push_cast; ring
  have e2 : ∀ r : List (ℕ × ℕ), (r.map fun c => cb c * ca c).sum = ((r.map fun c => c.2 * c.1).sum : ℕ) / ((T : ℝ) * T) := by
    intro r
    induction r with
    | nil => simp
    | cons c r ih => simp only [List.map_cons, List.sum_cons, ih]; unfold ca cb; push_cast; field_simp
  have h1 : (2 : ℝ) * (((r.map fun c => c.1).sum : ℕ) : ℝ) ≤ 3 * T := by exact_mod_cast h.1
  have h2 : (((r.map fun c => c.2 * c.1).sum : ℕ) : ℝ) ≤ 2097151 * (T * T) := by exact_mod_cast h.2
  constructor
  · rw [e1, div_le_iff₀ hT]; linarith
  · rw [e2, div_le_iff₀ (by positivity)]; exact h2

/-- A successful check bounds the difference on all positive numbers. -/
theorem check_sound {eps : ℕ} {m : List (ℕ × ℕ)} (h0 : smallOk r = true) (h : check r eps m = true) {t : ℝ} (ht : 0 ≤ t) :
    |1 - gR r t - erf t| ≤ eps / sc := by
  unfold check at h
  have hJ : J (((0 : ℕ) : ℝ) / U) = 0 := by simp [J]
  exact loop_sound (small_of h0) (mesh m) (X := 0) (jl := 0) (jh := 0) h (by rw [hJ]; simp) (by rw [hJ]; simp) t (by simpa using ht)
end Verif.FLS.ErfCheck
