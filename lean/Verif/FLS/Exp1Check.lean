import Verif.FLS.Exp1Props
import Verif.FLS.ErfCheck

/-!
# A verified bound of the relative error of the formula for the exponential integral

`exp1` is compared with `E1` by their derivatives: `wA x + wB x` is the quotient of the derivatives (`exp1_hasDerivAt`).  A checker in integer arithmetic
(fixed point with 60 bits) steps through a mesh in `- log x` and bounds the quotient on each cell by interval arithmetic.  `loop_sound`: if the checker
succeeds, the quotient differs from 1 by at most the tolerance on the whole interval.
-/

noncomputable section

namespace Verif.FLS.Exp1Check

open Real Set Verif.FLS Verif.FLS.ErfCheck

/-! ### The checker -/

def mL (a b : ℕ) : ℕ := a * b / sc
def mH (a b : ℕ) : ℕ := a * b / sc + 1
def dL (a b : ℕ) : ℕ := a * sc / b
def dH (a b : ℕ) : ℕ := a * sc / b + 1

/-- Bounds of `exp (-y)`. -/
def xpL (y : ℕ) : ℕ := expN y - 65536
def xpH (y : ℕ) : ℕ := expN y + 65536

/-- Bounds of the constants, at the scale `sc`. -/
def gLo : ℕ := 647311237526028055
def gHi : ℕ := 647333143034615586
def bLo : ℕ := 1201401853875564891
def bHi : ℕ := 1201459499950795234
def hLo : ℕ := 1245212871050625076
def hHi : ℕ := 1245385809276316104
def pLo : ℕ := 1258907756909377139
def pHi : ℕ := 1258907768438592186
def cLo : ℕ := 950088254885665308881
def cHi : ℕ := 950088370177815769567

/-- A cell: `c`, `sC`, `qC` are upper bounds of `x`, `x √x` and `20 / 47 x ^ √(31 / 26)`, `a`, `sA`, `qA` lower bounds; `lh` and `ll` are guesses of the logarithm.
The result is passed to `k`. -/
def cell (eps c sC qC a sA qA lh ll : ℕ) (k : ℕ → ℕ → Bool) : Bool :=
  force (dL sc (sc + sC) + dL (mL hLo qA) (sc + qA) + mL bLo a) fun yL =>
  force (dH sc (sc + sA) + dH (mH hHi qC) (sc + qC) + mH bHi c) fun yH =>
  force (xpL (dH c (sc - gHi))) fun eL =>
  force (xpH (dL a (sc - gLo))) fun eH =>
  force (sc - mH (sc - gLo) (sc - eL)) fun dl =>
  force (sc - mL (sc - gHi) (sc - eH)) fun dh =>
  force (mL yL yL) fun y2L =>
  force (mH yH yH) fun y2H =>
  force (gLo - dH (mH (sc - gLo) c) y2L) fun xuL =>
  force (gHi - dL (mL (sc - gHi) a) y2H) fun xuH =>
  force (dL gLo c - dH (sc - gLo) y2L) fun uL =>
  force (dH gHi a - dL (sc - gHi) y2H) fun uH =>
  force (lh + mL (sc + uH) (xpL lh) - sc) fun lh' =>
  force (mL (sc + uH) (xpL lh')) fun T =>
  force (lh' + sc - dH sc T) fun LL =>
  force (ll + mH (sc + uL) (xpH ll) - sc) fun ll' =>
  force (ll' + mH (sc + uL) (xpH ll') - sc) fun LH =>
  force (mL xuL (dL LL uH)) fun xLL =>
  force (mH xuH (dH LH uL)) fun xLH =>
  force (mL dl dl) fun d2L =>
  force (mH dh dh) fun d2H =>
  force (dL (mL (mL gLo (sc - eH)) xLL) d2H) fun AL =>
  force (dH (mH (mH gHi (sc - eL)) xLH) d2L) fun AH =>
  force (mL bLo a + mL (mL hLo pLo) (dL qA (mH (sc + qC) (sc + qC)))) fun KLp =>
  force (mH (sc + sc / 2) (dH sC (mL (sc + sA) (sc + sA)))) fun KLm =>
  force (mH bHi c + mH (mH hHi pHi) (dH qC (mL (sc + qA) (sc + qA)))) fun KHp =>
  force (mL (sc + sc / 2) (dL sA (mH (sc + sC) (sc + sC)))) fun KHm =>
  force (mL y2L yL) fun y3L =>
  force (mH y2H yH) fun y3H =>
  force (dH (mH (2 * sc) (mH (mH (sc - gLo) c) (KHp - KHm))) y3L) fun nm =>
  force (gHi - dL (mL (2 * sc) (mL (mL (sc - gHi) a) (KLp - KLm))) y3H) fun nH =>
  force (mL (a + xuL) dl) fun vL =>
  force (dL (gLo - nm) (mH (c + xuH) dh)) fun BL =>
  force (dH nH vL) fun BH =>
  Nat.ble 1 a && Nat.ble 1 y2L && Nat.ble 1 y3L && Nat.ble 1 T && Nat.ble 1 uL && Nat.ble 1 d2L && Nat.ble 1 vL
    && Nat.ble KLm KLp && Nat.ble KHm KHp && Nat.ble nm gLo
    && Nat.ble sc (AL + BL + eps) && Nat.ble (AH + BH) (sc + eps) && k lh' ll'

/-- The lower bounds at a point of the mesh `x = 1024 exp (-t)`. -/
def xL (t : ℕ) : ℕ := 1024 * xpL t
def sL (t : ℕ) : ℕ := 32768 * xpL (t + t / 2 + 1)
def qL (t : ℕ) : ℕ := mL cLo (xpL (mH pHi t))
/-- The upper bounds. -/
def xH (t : ℕ) : ℕ := 1024 * xpH t
def sH (t : ℕ) : ℕ := 32768 * xpH (t + t / 2)
def qH (t : ℕ) : ℕ := mH cHi (xpH (mL pLo t))

def loop (eps tend : ℕ) : List ℕ → ℕ → ℕ → ℕ → ℕ → ℕ → ℕ → Bool
  | [], t, _, _, _, _, _ => Nat.ble tend t
  | W :: l, t, c, sC, qC, lh, ll =>
    force (t + W * 1099511627776) fun t' =>
    force (xL t') fun a =>
    force (sL t') fun sA =>
    force (qL t') fun qA =>
    cell eps c sC qC a sA qA lh ll fun lh' ll' =>
      force (xH t') fun c' =>
      force (sH t') fun sC' =>
      force (qH t') fun qC' =>
      loop eps tend l t' c' sC' qC' lh' ll'

/-- The checker: a mesh from `t = 0` to `tend`. -/
def check (eps tend : ℕ) (m : List (ℕ × ℕ)) : Bool := loop eps tend (mesh m) 0 (xH 0) (sH 0) (qH 0) 0 0

attribute [local irreducible] sc expN

/-! ### Bounds -/

def Lo (n : ℕ) (v : ℝ) : Prop := (n : ℝ) ≤ sc * v
def Hi (n : ℕ) (v : ℝ) : Prop := sc * v ≤ (n : ℝ)

theorem scn : 0 < sc := by unfold sc; norm_num

theorem Lo.nonneg {a : ℕ} {v : ℝ} (h : Lo a v) : 0 ≤ v := by
  have h0 : (0 : ℝ) ≤ a := Nat.cast_nonneg a
  have := sc_pos
  unfold Lo at h
  by_contra hc
  push Not at hc
  nlinarith

theorem Lo.pos {a : ℕ} {v : ℝ} (h : Lo a v) (ha : 1 ≤ a) : 0 < v := by
  have h0 : (1 : ℝ) ≤ a := by exact_mod_cast ha
  have := sc_pos
  unfold Lo at h
  by_contra hc
  push Not at hc
  nlinarith

theorem Lo.mono {a : ℕ} {v w : ℝ} (h : Lo a v) (hw : v ≤ w) : Lo a w := le_trans h (mul_le_mul_of_nonneg_left hw sc_pos.le)
theorem Hi.mono {a : ℕ} {v w : ℝ} (h : Hi a v) (hw : w ≤ v) : Hi a w := le_trans (mul_le_mul_of_nonneg_left hw sc_pos.le) h

theorem Lo.self (a : ℕ) : Lo a ((a : ℝ) / sc) := by have := sc_pos; unfold Lo; rw [mul_div_cancel₀ _ this.ne']
theorem Hi.self (a : ℕ) : Hi a ((a : ℝ) / sc) := by have := sc_pos; unfold Hi; rw [mul_div_cancel₀ _ this.ne']

theorem Lo.le {a : ℕ} {v : ℝ} (h : Lo a v) : (a : ℝ) / sc ≤ v := by rw [div_le_iff₀ sc_pos]; unfold Lo at h; linarith
theorem Hi.le {a : ℕ} {v : ℝ} (h : Hi a v) : v ≤ (a : ℝ) / sc := by rw [le_div_iff₀ sc_pos]; unfold Hi at h; linarith

theorem Lo.one : Lo sc 1 := by unfold Lo; rw [mul_one]
theorem Hi.one : Hi sc 1 := by unfold Hi; rw [mul_one]

theorem Lo.add {a b : ℕ} {v w : ℝ} (h : Lo a v) (k : Lo b w) : Lo (a + b) (v + w) := by unfold Lo at *; push_cast; linarith
theorem Hi.add {a b : ℕ} {v w : ℝ} (h : Hi a v) (k : Hi b w) : Hi (a + b) (v + w) := by unfold Hi at *; push_cast; linarith

theorem Lo.sub {a b : ℕ} {v w : ℝ} (h : Lo a v) (k : Hi b w) (h0 : 0 ≤ v - w) : Lo (a - b) (v - w) := by
  unfold Lo Hi at *
  exact sub_le_of (mul_nonneg sc_pos.le h0) (by linarith)

theorem Lo.sub_le {a b : ℕ} {v w z : ℝ} (h : Lo a v) (k : Hi b w) (hz : v - w ≤ z) (h0 : 0 ≤ z) : Lo (a - b) z := by
  unfold Lo Hi at *
  exact sub_le_of (mul_nonneg sc_pos.le h0) (by nlinarith [mul_le_mul_of_nonneg_left hz sc_pos.le])

theorem Lo.sub' {a b : ℕ} {v w : ℝ} (h : Lo a v) (k : Hi b w) (h0 : b ≤ a) : Lo (a - b) (v - w) := by
  unfold Lo Hi at *
  rw [Nat.cast_sub h0]
  linarith

theorem Hi.sub {a b : ℕ} {v w : ℝ} (h : Hi a v) (k : Lo b w) : Hi (a - b) (v - w) := by
  unfold Lo Hi at *
  have := sub_ge a b
  linarith

theorem Lo.mul {a b : ℕ} {v w : ℝ} (h : Lo a v) (k : Lo b w) : Lo (mL a b) (v * w) := by
  have hs := sc_pos
  have h0 := h.nonneg; have k0 := k.nonneg
  unfold Lo mL at *
  refine (div_floor (a * b) sc scn).1.trans ?_
  rw [div_le_iff₀ hs]
  push_cast
  calc (a : ℝ) * b ≤ (sc * v) * (sc * w) := mul_le_mul h k (Nat.cast_nonneg b) (by positivity)
    _ = sc * (v * w) * sc := by ring

theorem Hi.mul {a b : ℕ} {v w : ℝ} (h : Hi a v) (k : Hi b w) (k0 : 0 ≤ w) : Hi (mH a b) (v * w) := by
  have hs := sc_pos
  unfold Hi mH at *
  push_cast
  refine le_trans ?_ (div_floor (a * b) sc scn).2
  rw [le_div_iff₀ hs]
  push_cast
  calc sc * (v * w) * sc = (sc * v) * (sc * w) := by ring
    _ ≤ a * b := mul_le_mul h k (by positivity) (Nat.cast_nonneg a)

theorem Lo.div {a b : ℕ} {v w : ℝ} (h : Lo a v) (k : Hi b w) (k0 : 0 < w) : Lo (dL a b) (v / w) := by
  have hs := sc_pos
  unfold Lo Hi dL at *
  have hb : (0 : ℝ) < b := lt_of_lt_of_le (by positivity) k
  have hb' : 0 < b := by exact_mod_cast hb
  refine (div_floor (a * sc) b hb').1.trans ?_
  rw [← mul_div_assoc, div_le_div_iff₀ hb k0]
  push_cast
  calc (a : ℝ) * sc * w = a * (sc * w) := by ring
    _ ≤ (sc * v) * b := mul_le_mul h k (by positivity) (le_trans (Nat.cast_nonneg a) h)

theorem Hi.div {a b : ℕ} {v w : ℝ} (h : Hi a v) (k : Lo b w) (k0 : 1 ≤ b) : Hi (dH a b) (v / w) := by
  have hs := sc_pos
  have hw := k.pos k0
  unfold Lo Hi dH at *
  have hb : (0 : ℝ) < b := by exact_mod_cast k0
  push_cast
  refine le_trans ?_ (div_floor (a * sc) b k0).2
  rw [← mul_div_assoc, div_le_div_iff₀ hw hb]
  push_cast
  calc sc * v * (b : ℝ) ≤ a * (sc * w) := mul_le_mul h k (Nat.cast_nonneg b) (Nat.cast_nonneg a)
    _ = a * sc * w := by ring

theorem xp_aux (z : ℕ) : (expN z : ℝ) - 65536 ≤ sc * exp (-((z : ℝ) / sc)) ∧ sc * exp (-((z : ℝ) / sc)) ≤ expN z + 65536 := by
  have h := abs_le.mp (expN_err z)
  have hs := sc_pos
  have hv : (sc : ℝ) = 65536 * 2 ^ 44 := by unfold sc; norm_num
  have e : (expN z : ℝ) = sc * ((expN z : ℝ) / sc) := by field_simp
  have e1 : (sc : ℝ) * (1 / 2 ^ 44) = 65536 := by rw [hv]; norm_num
  constructor
  · rw [e]; nlinarith [mul_le_mul_of_nonneg_left h.2 hs.le]
  · rw [e]; nlinarith [mul_le_mul_of_nonneg_left h.1 hs.le]

theorem Lo.xp {z : ℕ} {v : ℝ} (h : Hi z v) : Lo (xpL z) (exp (-v)) := by
  have hs := sc_pos
  have := (xp_aux z).1
  have h1 : Lo (xpL z) (exp (-((z : ℝ) / sc))) := sub_le_of (by positivity) (by push_cast; linarith)
  exact h1.mono (exp_le_exp.mpr (neg_le_neg h.le))

theorem Hi.xp {z : ℕ} {v : ℝ} (h : Lo z v) : Hi (xpH z) (exp (-v)) := by
  have := (xp_aux z).2
  refine (by unfold Hi xpH; push_cast; linarith : Hi (xpH z) (exp (-((z : ℝ) / sc)))).mono ?_
  exact exp_le_exp.mpr (neg_le_neg h.le)

/-! ### The quotient of the derivatives -/

/-- `20 / 47 x ^ √(31 / 26)`. -/
def wq (x : ℝ) : ℝ := 20 / 47 * x ^ √(31 / 26)
/-- The limit of `h`. -/
def wh : ℝ := (1 - cG) * (cG ^ 2 - 6 * cG + 12) / (3 * cG * (2 - cG) ^ 2 * cb)
/-- The denominator. -/
def wd (x : ℝ) : ℝ := 1 - (1 - cG) * (1 - exp (-(x / (1 - cG))))
/-- `x` times the derivative of `h + b x`. -/
def wK (x : ℝ) : ℝ :=
  cb * x + wh * √(31 / 26) * (wq x / ((1 + wq x) * (1 + wq x))) - 3 / 2 * (x * √x / ((1 + x * √x) * (1 + x * √x)))
/-- `x` times the argument of the logarithm less one. -/
def wxu (x : ℝ) : ℝ := cG - (1 - cG) * x / ((ch x + cb * x) * (ch x + cb * x))
/-- The part from the derivative of the factor. -/
def wA (x : ℝ) : ℝ := cG * (1 - exp (-(x / (1 - cG)))) * (wxu x * (log (1 + cu x) / cu x)) / (wd x * wd x)
/-- The part from the derivative of the logarithm. -/
def wB (x : ℝ) : ℝ :=
  (cG - 2 * ((1 - cG) * x * wK x) / ((ch x + cb * x) * (ch x + cb * x) * (ch x + cb * x))) / ((x + wxu x) * wd x)

/-- Bounds of the constants. -/
structure Consts : Prop where
  g1 : Lo gLo cG
  g2 : Hi gHi cG
  b1 : Lo bLo cb
  b2 : Hi bHi cb
  h1 : Lo hLo wh
  h2 : Hi hHi wh
  p1 : Lo pLo √(31 / 26)
  p2 : Hi pHi √(31 / 26)
  c1 : Lo cLo (20 / 47 * 1024 ^ √(31 / 26))
  c2 : Hi cHi (20 / 47 * 1024 ^ √(31 / 26))

theorem log_div_anti {u v : ℝ} (hu : 0 < u) (huv : u ≤ v) : log (1 + v) / v ≤ log (1 + u) / u := by
  have hv := hu.trans_le huv
  rw [div_le_div_iff₀ hv hu]
  have hc := strictConcaveOn_log_Ioi.concaveOn.2 (show (1 : ℝ) ∈ Ioi 0 by simp) (show 1 + v ∈ Ioi 0 by simp only [mem_Ioi]; linarith)
    (show 0 ≤ 1 - u / v by rw [sub_nonneg, div_le_one hv]; exact huv) (show 0 ≤ u / v by positivity) (by ring)
  simp only [smul_eq_mul, log_one, mul_zero, zero_add] at hc
  rw [show (1 - u / v) * 1 + u / v * (1 + v) = 1 + u by field_simp; ring, div_mul_eq_mul_div, div_le_iff₀ hv] at hc
  linarith

theorem wxu_eq {x : ℝ} (hx : 0 < x) : wxu x = x * cu x := by
  unfold wxu cu
  have : ch x + cb * x ≠ 0 := (add_pos (ch_pos hx) (mul_pos cb_pos hx)).ne'
  field_simp

theorem wxu_pos {x : ℝ} (hx : 0 < x) : 0 < wxu x := by
  rw [wxu_eq hx]; exact mul_pos hx (cu_pos hx)

theorem eta_lt {x : ℝ} (hx : 0 < x) : exp (-(x / (1 - cG))) < 1 := by
  have := cG_lt
  rw [exp_lt_one_iff, neg_lt_zero]
  exact div_pos hx (by linarith)

theorem wd_pos {x : ℝ} (hx : 0 < x) : 0 < wd x := by
  have h1 := cG_lt; have h2 := cG_gt; have h3 := eta_lt hx; have h4 := exp_pos (-(x / (1 - cG)))
  unfold wd
  nlinarith

theorem wq_pos {x : ℝ} (hx : 0 < x) : 0 < wq x := by unfold wq; positivity

theorem wh_pos : 0 < wh := by
  have h1 := cG_lt; have h2 := cG_gt; have h3 := cb_pos
  have h4 : 0 < cG := by linarith
  have h5 : 0 < 2 - cG := by linarith
  exact div_pos (mul_pos (by linarith) (by nlinarith)) (by positivity)

theorem ch_wq (x : ℝ) : ch x = 1 / (1 + x * √x) + wh * wq x / (1 + wq x) := rfl

theorem frac_mono {q r : ℝ} (hq : 0 ≤ q) (h : q ≤ r) : wh * q / (1 + q) ≤ wh * r / (1 + r) := by
  have := wh_pos
  rw [div_le_div_iff₀ (by linarith) (by linarith)]
  nlinarith [mul_le_mul_of_nonneg_left h this.le]

theorem half : ((sc / 2 : ℕ) : ℝ) = sc * (1 / 2) := by unfold sc; norm_num

theorem log_lo (u l : ℕ) (hT : 1 ≤ mL (sc + u) (xpL l)) : Lo (l + sc - dH sc (mL (sc + u) (xpL l))) (log (1 + (u : ℝ) / sc)) := by
  have hu : (0 : ℝ) ≤ (u : ℝ) / sc := by positivity
  have hu1 : (0 : ℝ) < 1 + (u : ℝ) / sc := by positivity
  have hT' := (Lo.one.add (Lo.self u)).mul (Lo.xp (Hi.self l))
  refine ((Lo.self l).add Lo.one).sub_le (Hi.one.div hT' hT) ?_ (log_nonneg (by linarith))
  have e := one_sub_inv_le_log_of_pos (mul_pos hu1 (exp_pos (-((l : ℝ) / sc))))
  rw [log_mul hu1.ne' (exp_pos _).ne', log_exp] at e
  rw [one_div]
  linarith

theorem log_hi (u l : ℕ) : Hi (l + mH (sc + u) (xpH l) - sc) (log (1 + (u : ℝ) / sc)) := by
  have hu1 : (0 : ℝ) < 1 + (u : ℝ) / sc := by positivity
  have hT' := (Hi.one.add (Hi.self u)).mul (Hi.xp (Lo.self l)) (exp_pos _).le
  refine (((Hi.self l).add hT').sub Lo.one).mono ?_
  have e := log_le_sub_one_of_pos (mul_pos hu1 (exp_pos (-((l : ℝ) / sc))))
  rw [log_mul hu1.ne' (exp_pos _).ne', log_exp] at e
  linarith

theorem sq_ge (m : ℕ) : 1 ≤ mL (sc + m) (sc + m) := by
  have h := scn
  unfold mL
  exact Nat.div_pos (by nlinarith) h

theorem cell_sound (C : Consts) {eps c sC qC a sA qA lh ll : ℕ} {k : ℕ → ℕ → Bool} {x : ℝ} (hx : 0 < x) (x1 : Lo a x) (x2 : Hi c x) (s1 : Lo sA (x * √x))
    (s2 : Hi sC (x * √x)) (q1 : Lo qA (wq x)) (q2 : Hi qC (wq x)) (h : cell eps c sC qC a sA qA lh ll k = true) :
    |wA x + wB x - 1| ≤ (eps : ℝ) / sc ∧ ∃ lh' ll', k lh' ll' = true := by
  have hg1 := cG_lt; have hg2 := cG_gt; have hb := cb_pos; have hwh := wh_pos; have hq := wq_pos hx
  have hs : 0 < x * √x := by positivity
  have hsc := sc_pos
  unfold cell at h
  simp only [force_eq, Bool.and_eq_true, Nat.ble_eq] at h
  -- the argument `h + b x`
  have y1 : Lo (dL sc (sc + sC) + dL (mL hLo qA) (sc + qA) + mL bLo a) (ch x + cb * x) := by
    rw [ch_wq]
    refine ((Lo.one.div (Hi.one.add s2) (by positivity)).add (((C.h1.mul (Lo.self qA)).div (Hi.one.add (Hi.self qA)) (by positivity)).mono
      (frac_mono (by positivity) q1.le))).add (C.b1.mul x1)
  have y2 : Hi (dH sc (sc + sA) + dH (mH hHi qC) (sc + qC) + mH bHi c) (ch x + cb * x) := by
    rw [ch_wq]
    refine ((Hi.one.div (Lo.one.add s1) (by have := scn; omega)).add (((C.h2.mul (Hi.self qC) (by positivity)).div (Lo.one.add (Lo.self qC))
      (by have := scn; omega)).mono (frac_mono hq.le q2.le))).add (C.b2.mul x2 hx.le)
  have hy : 0 < ch x + cb * x := add_pos (ch_pos hx) (mul_pos hb hx)
  set y := ch x + cb * x with hydef
  generalize dL sc (sc + sC) + dL (mL hLo qA) (sc + qA) + mL bLo a = yL at *
  generalize dH sc (sc + sA) + dH (mH hHi qC) (sc + qC) + mH bHi c = yH at *
  -- `exp (-x / (1 - G))`
  have g1 : Lo (sc - gHi) (1 - cG) := Lo.one.sub C.g2 (by linarith)
  have g2 : Hi (sc - gLo) (1 - cG) := Hi.one.sub C.g1
  have gp : 1 ≤ sc - gHi := by unfold sc gHi; norm_num
  have hg : 0 < 1 - cG := by linarith
  have e1 := Lo.xp (x2.div g1 gp)
  have e2 := Hi.xp (x1.div g2 hg)
  generalize xpL (dH c (sc - gHi)) = eL at *
  generalize xpH (dL a (sc - gLo)) = eH at *
  have he := eta_lt hx
  have hd : 0 < wd x := wd_pos hx
  have d1 : Lo (sc - mH (sc - gLo) (sc - eL)) (wd x) := Lo.one.sub (g2.mul (Hi.one.sub e1) (by linarith)) hd.le
  have d2 : Hi (sc - mL (sc - gHi) (sc - eH)) (wd x) := Hi.one.sub (g1.mul (Lo.one.sub e2 (by linarith)))
  have f1 : Lo (sc - eH) (1 - exp (-(x / (1 - cG)))) := Lo.one.sub e2 (by linarith)
  have f2 : Hi (sc - eL) (1 - exp (-(x / (1 - cG)))) := Hi.one.sub e1
  generalize sc - mH (sc - gLo) (sc - eL) = dl at *
  generalize sc - mL (sc - gHi) (sc - eH) = dh at *
  have y21 := y1.mul y1
  have y22 := y2.mul y2 hy.le
  generalize mL yL yL = y2L at *
  generalize mH yH yH = y2H at *
  have y31 := y21.mul y1
  have y32 := y22.mul y2 hy.le
  generalize mL y2L yL = y3L at *
  generalize mH y2H yH = y3H at *
  have hcu := cu_pos hx
  have hxu := wxu_pos hx
  have hcu' : cu x = cG / x - (1 - cG) / (y * y) := by unfold cu; rw [hydef, pow_two]
  obtain ⟨⟨⟨⟨⟨⟨⟨⟨⟨⟨⟨⟨k1, k2⟩, k3⟩, k4⟩, k5⟩, k6⟩, k7⟩, k8⟩, k9⟩, k10⟩, k11⟩, k12⟩, k13⟩ := h
  have u1 : Lo (gLo - dH (mH (sc - gLo) c) y2L) (wxu x) := C.g1.sub ((g2.mul x2 hx.le).div y21 k2) hxu.le
  have u2 : Hi (gHi - dL (mL (sc - gHi) a) y2H) (wxu x) := C.g2.sub ((g1.mul x1).div y22 (by positivity))
  have v1 : Lo (dL gLo c - dH (sc - gLo) y2L) (cu x) := by
    rw [hcu']; exact (C.g1.div x2 hx).sub (g2.div y21 k2) (by rw [← hcu']; exact hcu.le)
  have v2 : Hi (dH gHi a - dL (sc - gHi) y2H) (cu x) := by
    rw [hcu']; exact (C.g2.div x1 k1).sub (g1.div y22 (by positivity))
  generalize gLo - dH (mH (sc - gLo) c) y2L = xuL at *
  generalize gHi - dL (mL (sc - gHi) a) y2H = xuH at *
  generalize dL gLo c - dH (sc - gLo) y2L = uL at *
  generalize dH gHi a - dL (sc - gHi) y2H = uH at *
  refine ⟨?_, _, _, k13⟩
  generalize lh + mL (sc + uH) (xpL lh) - sc = lh' at *
  generalize ll + mH (sc + uL) (xpH ll) - sc = ll' at *
  have l1 := log_lo uH lh' k4
  have l2 := log_hi uL ll'
  have v2p : (0 : ℝ) < (uH : ℝ) / sc := hcu.trans_le v2.le
  have v1p : (0 : ℝ) < (uL : ℝ) / sc := div_pos (by exact_mod_cast k5) hsc
  have r1 : Lo _ (log (1 + cu x) / cu x) := (l1.div (Hi.self uH) v2p).mono (log_div_anti hcu v2.le)
  have r2 : Hi _ (log (1 + cu x) / cu x) := (l2.div (Lo.self uL) k5).mono (log_div_anti v1p v1.le)
  generalize lh' + sc - dH sc (mL (sc + uH) (xpL lh')) = LL at *
  generalize ll' + mH (sc + uL) (xpH ll') - sc = LH at *
  have hr : 0 ≤ log (1 + cu x) / cu x := div_nonneg (log_nonneg (by linarith)) hcu.le
  have a1 : Lo _ (wA x) := ((C.g1.mul f1).mul (u1.mul r1)).div (d2.mul d2 hd.le) (by positivity)
  have a2 : Hi _ (wA x) := ((C.g2.mul f2 (by linarith)).mul (u2.mul r2 hr) (mul_nonneg hxu.le hr)).div (d1.mul d1) k6
  -- the derivative of `h + b x`
  have hone : 0 < 1 + x * √x := by positivity
  have htwo : 0 < 1 + wq x := by positivity
  have c1 : Lo (sc + sc / 2) (3 / 2) := by unfold Lo; push_cast [half]; linarith
  have c2 : Hi (sc + sc / 2) (3 / 2) := by unfold Hi; push_cast [half]; linarith
  have t1 : Lo (2 * sc) 2 := by unfold Lo; push_cast; linarith
  have t2 : Hi (2 * sc) 2 := by unfold Hi; push_cast; linarith
  have K1 : Lo _ (wK x) := ((C.b1.mul x1).add ((C.h1.mul C.p1).mul (q1.div ((Hi.one.add q2).mul (Hi.one.add q2) htwo.le) (by positivity)))).sub'
    (c2.mul (s2.div ((Lo.one.add s1).mul (Lo.one.add s1)) (sq_ge sA)) (by positivity)) k8
  have K2 : Hi _ (wK x) := ((C.b2.mul x2 hx.le).add ((C.h2.mul C.p2 (by positivity)).mul (q2.div ((Lo.one.add q1).mul (Lo.one.add q1)) (sq_ge qA)) (by positivity))).sub
    (c1.mul (s1.div ((Hi.one.add s2).mul (Hi.one.add s2) hone.le) (by positivity)))
  have hK : 0 ≤ wK x := K1.nonneg
  have n1 : Lo _ (cG - 2 * ((1 - cG) * x * wK x) / (y * y * y)) :=
    C.g1.sub' ((t2.mul ((g2.mul x2 hx.le).mul K2 hK) (by positivity)).div y31 k3) k10
  have n2 : Hi _ (cG - 2 * ((1 - cG) * x * wK x) / (y * y * y)) := C.g2.sub ((t1.mul ((g1.mul x1).mul K1)).div y32 (by positivity))
  have B1 : Lo _ (wB x) := n1.div ((x2.add u2).mul d2 hd.le) (by positivity)
  have B2 : Hi _ (wB x) := n2.div ((x1.add u1).mul d1) k7
  have S1 := a1.add B1
  have S2 := a2.add B2
  have k11' := (Nat.cast_le (α := ℝ)).mpr k11
  have k12' := (Nat.cast_le (α := ℝ)).mpr k12
  unfold Lo at S1
  unfold Hi at S2
  rw [abs_le, le_div_iff₀ hsc, ← neg_div, div_le_iff₀ hsc]
  push_cast at *
  constructor <;> linarith

/-! ### The mesh -/

theorem x_lo (t : ℕ) {τ : ℝ} (h : Hi t τ) : Lo (xL t) (1024 * exp (-τ)) := by
  have := Lo.xp h
  unfold Lo xL at *; push_cast; linarith

theorem x_hi (t : ℕ) {τ : ℝ} (h : Lo t τ) : Hi (xH t) (1024 * exp (-τ)) := by
  have := Hi.xp h
  unfold Hi xH at *; push_cast; linarith

theorem s_eq (τ : ℝ) : 1024 * exp (-τ) * √(1024 * exp (-τ)) = 32768 * exp (-(3 / 2 * τ)) := by
  have h : √(1024 * exp (-τ)) = 32 * exp (-(τ / 2)) := by
    rw [show (1024 : ℝ) * exp (-τ) = (32 * exp (-(τ / 2))) ^ 2 by rw [mul_pow, ← exp_nat_mul]; norm_num; ring_nf]
    exact sqrt_sq (by positivity)
  rw [h, show -(3 / 2 * τ) = -τ + -(τ / 2) by ring, exp_add]
  ring

theorem s_lo (t : ℕ) {τ : ℝ} (h : Hi t τ) : Lo (sL t) (1024 * exp (-τ) * √(1024 * exp (-τ))) := by
  have h2 : Hi (t + t / 2 + 1) (3 / 2 * τ) := by
    have := (div_floor t 2 two_pos).2
    unfold Hi at *; push_cast at *; linarith
  have := Lo.xp h2
  rw [s_eq]
  unfold Lo sL at *; push_cast; linarith

theorem s_hi (t : ℕ) {τ : ℝ} (h : Lo t τ) : Hi (sH t) (1024 * exp (-τ) * √(1024 * exp (-τ))) := by
  have h2 : Lo (t + t / 2) (3 / 2 * τ) := by
    have := (div_floor t 2 two_pos).1
    unfold Lo at *; push_cast at *; linarith
  have := Hi.xp h2
  rw [s_eq]
  unfold Hi sH at *; push_cast; linarith

theorem q_eq (τ : ℝ) : wq (1024 * exp (-τ)) = 20 / 47 * 1024 ^ √(31 / 26) * exp (-(√(31 / 26) * τ)) := by
  unfold wq
  rw [mul_rpow (by norm_num) (exp_pos _).le, ← exp_mul]
  ring_nf

theorem q_lo (C : Consts) (t : ℕ) {τ : ℝ} (h : Hi t τ) (h0 : 0 ≤ τ) : Lo (qL t) (wq (1024 * exp (-τ))) := by
  rw [q_eq]
  exact C.c1.mul (Lo.xp (C.p2.mul h h0))

theorem q_hi (C : Consts) (t : ℕ) {τ : ℝ} (h : Lo t τ) : Hi (qH t) (wq (1024 * exp (-τ))) := by
  rw [q_eq]
  exact C.c2.mul (Hi.xp (C.p1.mul h)) (exp_pos _).le

theorem loop_sound (C : Consts) (eps tend : ℕ) : ∀ (l : List ℕ) (t lh ll : ℕ), loop eps tend l t (xH t) (sH t) (qH t) lh ll = true →
    ∀ τ : ℝ, Lo t τ → Hi tend τ → |wA (1024 * exp (-τ)) + wB (1024 * exp (-τ)) - 1| ≤ (eps : ℝ) / sc ∨ Lo tend τ
  | [], t, lh, ll, h, τ, h1, h2 => by
    simp only [loop, Nat.ble_eq] at h
    right
    unfold Lo at *
    exact le_trans (by exact_mod_cast h) h1
  | W :: l, t, lh, ll, h, τ, h1, h2 => by
    simp only [loop, force_eq] at h
    have h0 := h1.nonneg
    rcases le_total (sc * τ) ((t + W * 1099511627776 : ℕ) : ℝ) with hc | hc
    · left
      exact (cell_sound C (by positivity) (x_lo _ hc) (x_hi t h1) (s_lo _ hc) (s_hi t h1) (q_lo C _ hc h0) (q_hi C t h1) h).1
    · have hs := sc_pos
      have l1 := Lo.self t
      have l2 : Hi (t + W * 1099511627776) ((t : ℝ) / sc) := by
        refine (Hi.self t).trans ?_
        exact_mod_cast Nat.le_add_right _ _
      obtain ⟨lh', ll', hk⟩ := (cell_sound C (by positivity) (x_lo _ l2) (x_hi t l1) (s_lo _ l2) (s_hi t l1) (q_lo C _ l2 l1.nonneg) (q_hi C t l1) h).2
      exact loop_sound C eps tend l _ lh' ll' hk τ hc h2

theorem check_sound (C : Consts) {eps tend : ℕ} {m : List (ℕ × ℕ)} (h : check eps tend m = true) {τ : ℝ} (h0 : 0 ≤ τ) :
    |wA (1024 * exp (-τ)) + wB (1024 * exp (-τ)) - 1| ≤ (eps : ℝ) / sc ∨ (tend : ℝ) / sc ≤ τ := by
  rcases le_total (sc * τ) (tend : ℝ) with h2 | h2
  · refine (loop_sound C eps tend _ 0 0 0 h τ ?_ h2).imp_right Lo.le
    unfold Lo
    push_cast
    exact mul_nonneg sc_pos.le h0
  · exact Or.inr (Lo.le h2)

end Verif.FLS.Exp1Check
