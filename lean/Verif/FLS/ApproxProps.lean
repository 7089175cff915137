import Verif.FLS.ApproxLemmas

/-!
# Properties C52, C89: the number of terms and the error of the approximation of the finite line source solution
-/

noncomputable section

namespace Verif.FLS

open Real MeasureTheory Set

/-! ### Specification -/

/-- A sum of Gaussians. -/
def gaussSum (ab : List (ℝ × ℝ)) (x : ℝ) : ℝ := (ab.map fun c => c.1 * exp (-c.2 * x ^ 2)).sum

/-- The integral of the error function with the error function replaced by `A` on the positive numbers. -/
def erfintWith (A : ℝ → ℝ) (x : ℝ) : ℝ := |x| * A |x| - 1 / √π * (1 - exp (-x ^ 2))

/-- The differences over a source and a receiver. -/
def realSum (F : ℝ → ℝ) (g : Pair) (s : ℝ) : ℝ :=
  F ((g.D2 - g.D1 + g.H2) * s) - F ((g.D2 - g.D1) * s) + F ((g.D2 - g.D1 - g.H1) * s) - F ((g.D2 - g.D1 + g.H2 - g.H1) * s)
def imageSum (F : ℝ → ℝ) (g : Pair) (s : ℝ) : ℝ :=
  F ((g.D2 + g.D1 + g.H2) * s) - F ((g.D2 + g.D1) * s) + F ((g.D2 + g.D1 + g.H1) * s) - F ((g.D2 + g.D1 + g.H2 + g.H1) * s)

/-- Integrand of the finite line source solution with the integral of the error function replaced by `F`. -/
def lineWith (F : ℝ → ℝ) (g : Pair) (rea img : Bool) (s : ℝ) : ℝ :=
  s ^ (-2 : ℤ) * exp (-g.dis ^ 2 * s ^ 2) * ((if rea then realSum F g s else 0) + if img then imageSum F g s else 0)

/-- Sum of the distances over which the approximation is evaluated. -/
def Pair.spans (g : Pair) (rea img : Bool) : ℝ :=
  (if rea then |g.D2 - g.D1 + g.H2| + |g.D2 - g.D1| + |g.D2 - g.D1 - g.H1| + |g.D2 - g.D1 + g.H2 - g.H1| else 0)
    + if img then |g.D2 + g.D1 + g.H2| + |g.D2 + g.D1| + |g.D2 + g.D1 + g.H1| + |g.D2 + g.D1 + g.H2 + g.H1| else 0

/-! ### The exact solution is of this form -/

theorem erfintWith_erf (x : ℝ) : erfintWith erf x = erfint x := by
  unfold erfintWith erfint
  rcases abs_cases x with ⟨h, -⟩ | ⟨h, -⟩ <;> rw [h]
  rw [erf_neg]; ring

theorem lineWith_erf (g : Pair) (rea img : Bool) : lineWith (erfintWith erf) g rea img = integrand g rea img := by
  funext s
  unfold lineWith integrand realSum imageSum Pair.qAll Pair.qRea Pair.qImg inner8 inner4
  simp only [erfintWith_erf]
  cases rea <;> cases img <;> simp
  all_goals exact Or.inl (by ring)

/-! ### Lists of signs and distances -/

theorem lineWith_pq (F : ℝ → ℝ) (g : Pair) (rea img : Bool) (s : ℝ) :
    lineWith F g rea img s = ((g.pq rea img).map fun x => x.1 * (s ^ (-2 : ℤ) * exp (-g.dis ^ 2 * s ^ 2) * F (x.2 * s))).sum := by
  unfold lineWith realSum imageSum Pair.pq Pair.qAll Pair.qRea Pair.qImg
  cases rea <;> cases img <;> simp <;> ring

theorem pq_zero (g : Pair) (rea img : Bool) : ((g.pq rea img).map fun x => x.1).sum = 0 := by
  unfold Pair.pq Pair.qAll Pair.qRea Pair.qImg
  cases rea <;> cases img <;> simp

theorem pq_spans (g : Pair) (rea img : Bool) : ((g.pq rea img).map fun x => |x.1| * |x.2|).sum = g.spans rea img := by
  unfold Pair.pq Pair.qAll Pair.qRea Pair.qImg Pair.spans
  cases rea <;> cases img <;> simp <;> ring

theorem pq_scaled (g : Pair) (alpha t : ℝ) (rea img : Bool) :
    (g.scaled alpha t).pq rea img = (g.pq rea img).map fun x => (x.1, lower alpha t * x.2) := by
  unfold Pair.pq Pair.qAll Pair.qRea Pair.qImg Pair.scaled lower
  cases rea <;> cases img <;> simp
  all_goals and_intros
  all_goals ring

theorem sum_integrableOn {α : Type*} {l : List α} {f : α → ℝ → ℝ} {S : Set ℝ} (h : ∀ x ∈ l, IntegrableOn (f x) S) :
    IntegrableOn (fun s => (l.map fun x => f x s).sum) S := by
  induction l with
  | nil => simp
  | cons x l ih =>
    simp only [List.map_cons, List.sum_cons]
    exact (h x List.mem_cons_self).add (ih fun y hy => h y (List.mem_cons_of_mem _ hy))

theorem sum_integral {α : Type*} {l : List α} {f : α → ℝ → ℝ} {S : Set ℝ} (h : ∀ x ∈ l, IntegrableOn (f x) S) :
    ∫ s in S, (l.map fun x => f x s).sum = (l.map fun x => ∫ s in S, f x s).sum := by
  induction l with
  | nil => simp
  | cons x l ih =>
    simp only [List.map_cons, List.sum_cons]
    rw [integral_add (h x List.mem_cons_self) (sum_integrableOn fun y hy => h y (List.mem_cons_of_mem _ hy)), ih fun y hy => h y (List.mem_cons_of_mem _ hy)]

/-! ### One term -/

section term
variable {d q a : ℝ} {ab : List (ℝ × ℝ)}

/-- The Gaussians of one term. -/
def gaussTerm (ab : List (ℝ × ℝ)) (d q s : ℝ) : ℝ := (ab.map fun c => c.1 * (exp (-(d ^ 2 + |q| ^ 2 * c.2) * s ^ 2) / s)).sum

theorem gaussTerm_integrableOn (hd : 0 < d) (ha : 0 < a) (hb : ∀ c ∈ ab, 0 ≤ c.2) : IntegrableOn (gaussTerm ab d q) (Ioi a) :=
  sum_integrableOn fun c hc => (gauss_div_integrableOn (by have := mul_nonneg (sq_nonneg |q|) (hb c hc); positivity) ha).const_mul _

theorem gaussTerm_integral (hd : 0 < d) (ha : 0 < a) (hb : ∀ c ∈ ab, 0 ≤ c.2) : ∫ s in Ioi a, gaussTerm ab d q s = expSum E1 ab ((a * d) ^ 2) (|a * q| ^ 2) := by
  have hk : ∀ c ∈ ab, 0 < d ^ 2 + |q| ^ 2 * c.2 := fun c hc => by have := mul_nonneg (sq_nonneg |q|) (hb c hc); positivity
  unfold gaussTerm expSum
  rw [sum_integral fun c hc => (gauss_div_integrableOn (hk c hc) ha).const_mul _]
  congr 1
  apply List.map_congr_left
  intro c hc
  rw [integral_const_mul, gauss_div_integral (hk c hc) ha]
  congr 3
  simp only [sq_abs]
  ring

theorem term_eq {s : ℝ} (hs : 0 < s) : s ^ (-2 : ℤ) * exp (-d ^ 2 * s ^ 2) * erfintWith (gaussSum ab) (q * s)
    = |q| * gaussTerm ab d q s + 1 / √π * (exp (-√(d ^ 2 + |q| ^ 2) ^ 2 * s ^ 2) / s ^ 2) - 1 / √π * (exp (-d ^ 2 * s ^ 2) / s ^ 2) := by
  have h1 : gaussTerm ab d q s = exp (-d ^ 2 * s ^ 2) / s * gaussSum ab |q * s| := by
    unfold gaussTerm gaussSum
    rw [← List.sum_map_mul_left]
    congr 1
    apply List.map_congr_left
    intro c _
    rw [show -(d ^ 2 + |q| ^ 2 * c.2) * s ^ 2 = -d ^ 2 * s ^ 2 + -c.2 * |q * s| ^ 2 by rw [sq_abs, sq_abs]; ring, exp_add]
    ring
  have h2 : exp (-√(d ^ 2 + |q| ^ 2) ^ 2 * s ^ 2) = exp (-d ^ 2 * s ^ 2) * exp (-(q * s) ^ 2) := by
    rw [← exp_add, sq_sqrt (by positivity), sq_abs]
    congr 1
    ring
  rw [h1, h2, erfintWith, abs_mul q s, abs_of_pos hs, zpow_neg]
  have := sqrt_pi_pos
  field_simp
  norm_cast
  field_simp
  ring

theorem term_integrableOn (hd : 0 < d) (ha : 0 < a) (hb : ∀ c ∈ ab, 0 ≤ c.2) :
    IntegrableOn (fun s => s ^ (-2 : ℤ) * exp (-d ^ 2 * s ^ 2) * erfintWith (gaussSum ab) (q * s)) (Ioi a) := by
  refine IntegrableOn.congr_fun (((gaussTerm_integrableOn (q := q) hd ha hb).const_mul |q|).add
    ((gauss_sq_integrableOn (c := √(d ^ 2 + |q| ^ 2)) (by positivity) ha).const_mul (1 / √π)) |>.sub ((gauss_sq_integrableOn hd ha).const_mul (1 / √π))) (fun s hs => ?_) measurableSet_Ioi
  exact (term_eq (ha.trans hs)).symm

theorem term_integral (hd : 0 < d) (ha : 0 < a) (hb : ∀ c ∈ ab, 0 ≤ c.2) :
    ∫ s in Ioi a, s ^ (-2 : ℤ) * exp (-d ^ 2 * s ^ 2) * erfintWith (gaussSum ab) (q * s)
      = a⁻¹ * (|a * q| * expSum E1 ab ((a * d) ^ 2) (|a * q| ^ 2) + ierfcTerm (a * d) (a * q)) - 1 / √π * ∫ s in Ioi a, exp (-d ^ 2 * s ^ 2) / s ^ 2 := by
  have hc : 0 < √(d ^ 2 + |q| ^ 2) := by positivity
  have e : √((a * d) ^ 2 + |a * q| ^ 2) = a * √(d ^ 2 + |q| ^ 2) := by
    rw [abs_mul, abs_of_pos ha, mul_pow, mul_pow, ← mul_add, sqrt_mul (by positivity), sqrt_sq ha.le]
  have i1 := (gaussTerm_integrableOn (q := q) hd ha hb).const_mul |q|
  have i2 := (gauss_sq_integrableOn hc ha).const_mul (1 / √π)
  have i3 := (gauss_sq_integrableOn hd ha).const_mul (1 / √π)
  rw [setIntegral_congr_fun measurableSet_Ioi fun s hs => term_eq (ha.trans hs), integral_sub (f := fun s => |q| * gaussTerm ab d q s + 1 / √π * (exp (-√(d ^ 2 + |q| ^ 2) ^ 2 * s ^ 2) / s ^ 2)) (i1.add i2) i3,
    integral_add i1 i2, integral_const_mul, integral_const_mul, integral_const_mul, gaussTerm_integral hd ha hb, gauss_sq_integral hc ha, ierfcTerm, e, abs_mul a q, abs_of_pos ha]
  have := sqrt_pi_pos
  rw [mul_pow, neg_mul, mul_comm (√(d ^ 2 + |q| ^ 2) ^ 2)]
  field_simp

end term

/-! ### The formula -/

theorem lineWith_integrableOn {g : Pair} (hd : 0 < g.dis) {ab : List (ℝ × ℝ)} (hb : ∀ c ∈ ab, 0 ≤ c.2) (rea img : Bool) {a : ℝ} (ha : 0 < a) :
    IntegrableOn (lineWith (erfintWith (gaussSum ab)) g rea img) (Ioi a) := by
  have e : lineWith (erfintWith (gaussSum ab)) g rea img = fun s => _ := funext fun s => lineWith_pq _ g rea img s
  rw [e]
  exact sum_integrableOn fun x _ => (term_integrableOn hd ha hb).const_mul _

theorem lower_pos' {alpha t : ℝ} (h : 0 < alpha * t) : 0 < lower alpha t := by
  unfold lower
  have : 0 < 4 * alpha * t := by linarith
  positivity

theorem approx_formula {ab : List (ℝ × ℝ)} (hb : ∀ c ∈ ab, 0 ≤ c.2) {t alpha : ℝ} (ht : 0 < alpha * t) {g : Pair} (hd : 0 < g.dis) (rea img : Bool) :
    approxWith E1 ab t alpha g rea img = 0.5 / g.H2 * ∫ s in Ioi (1 / √(4 * alpha * t)), lineWith (erfintWith (gaussSum ab)) g rea img s := by
  have ha := lower_pos' ht
  change _ = 0.5 / g.H2 * ∫ s in Ioi (lower alpha t), _
  obtain ⟨a, hA⟩ : ∃ a, a = lower alpha t := ⟨_, rfl⟩
  have hdis : (g.scaled alpha t).dis = a * g.dis := by rw [hA]; unfold Pair.scaled lower; ring
  have hH : (g.scaled alpha t).H2 = a * g.H2 := by rw [hA]; unfold Pair.scaled lower; ring
  rw [← hA] at ha ⊢
  have hI : ∫ s in Ioi a, lineWith (erfintWith (gaussSum ab)) g rea img s = a⁻¹ * (G1 E1 ab (a * g.dis) ((g.scaled alpha t).pq rea img) + G3 (a * g.dis) ((g.scaled alpha t).pq rea img)) := by
    rw [setIntegral_congr_fun measurableSet_Ioi fun s _ => lineWith_pq _ g rea img s, sum_integral fun x _ => (term_integrableOn hd ha hb).const_mul _]
    have h0 := pq_zero g rea img
    rw [pq_scaled, ← hA]
    unfold G1 G3
    rw [List.map_map, List.map_map]
    have key : ∀ l : List (ℝ × ℝ), (l.map fun x => ∫ s in Ioi a, x.1 * (s ^ (-2 : ℤ) * exp (-g.dis ^ 2 * s ^ 2) * erfintWith (gaussSum ab) (x.2 * s))).sum
        = a⁻¹ * ((l.map ((fun x : ℝ × ℝ => x.1 * (|x.2| * expSum E1 ab ((a * g.dis) ^ 2) (|x.2| ^ 2))) ∘ fun x => (x.1, a * x.2))).sum
          + (l.map ((fun x : ℝ × ℝ => x.1 * ierfcTerm (a * g.dis) x.2) ∘ fun x => (x.1, a * x.2))).sum)
          - (l.map fun x => x.1).sum * (1 / √π * ∫ s in Ioi a, exp (-g.dis ^ 2 * s ^ 2) / s ^ 2) := by
      intro l
      induction l with
      | nil => simp
      | cons x l ih =>
        simp only [List.map_cons, List.sum_cons, Function.comp] at ih ⊢
        rw [ih, integral_const_mul, term_integral hd ha hb]
        ring
    rw [key, h0]
    ring
  rw [hI]
  unfold approxWith
  dsimp only
  rw [hdis, hH]
  by_cases h2 : g.H2 = 0
  · simp [h2]
  field_simp

/-! ### The error -/

theorem sum_abs_le {α : Type*} (l : List α) {f b : α → ℝ} (h : ∀ x ∈ l, |f x| ≤ b x) : |(l.map f).sum| ≤ (l.map b).sum := by
  induction l with
  | nil => simp
  | cons x l ih =>
    simp only [List.map_cons, List.sum_cons]
    exact (abs_add_le _ _).trans (add_le_add (h x List.mem_cons_self) (ih fun y hy => h y (List.mem_cons_of_mem _ hy)))

/-- Error from the sum of Gaussians. -/
theorem gauss_error {ab : List (ℝ × ℝ)} (hb : ∀ c ∈ ab, 0 ≤ c.2) {t alpha : ℝ} (ht : 0 < alpha * t) {g : Pair} (hg : g.Ok) (rea img : Bool) {ε : ℝ}
    (hε : ∀ x, 0 < x → |gaussSum ab x - erf x| ≤ ε) :
    |approxWith E1 ab t alpha g rea img - fls t alpha g rea img| ≤ g.spans rea img / (4 * g.H2) * (ε * E1 (g.dis ^ 2 / (4 * alpha * t))) := by
  have ha := lower_pos' ht
  have h2 := hg.H2
  have he : 0 ≤ ε := (abs_nonneg _).trans (hε 1 one_pos)
  rw [approx_formula hb ht hg.dis, fls, quad]
  change |(0.5 / g.H2 * ∫ s in Ioi (lower alpha t), _) - _| ≤ _
  rw [← mul_sub, ← lineWith_erf, ← integral_sub (lineWith_integrableOn hg.dis hb rea img ha)
    (by rw [lineWith_erf]; exact integrand_integrableOn hg rea img ha.le), abs_mul, abs_of_pos (by positivity)]
  have hI : |∫ s in Ioi (lower alpha t), (lineWith (erfintWith (gaussSum ab)) g rea img s - lineWith (erfintWith erf) g rea img s)|
      ≤ ∫ s in Ioi (lower alpha t), ε * g.spans rea img * (exp (-g.dis ^ 2 * s ^ 2) / s) := by
    rw [← norm_eq_abs]
    refine norm_integral_le_of_norm_le ((gauss_div_integrableOn (by have := hg.dis; positivity) ha).const_mul _) ((ae_restrict_mem measurableSet_Ioi).mono fun s hs => ?_)
    have h0 : 0 < s := ha.trans hs
    rw [norm_eq_abs, lineWith_pq, lineWith_pq, ← pq_spans]
    have e1 : ∀ l : List (ℝ × ℝ), (l.map fun x => x.1 * (s ^ (-2 : ℤ) * exp (-g.dis ^ 2 * s ^ 2) * erfintWith (gaussSum ab) (x.2 * s))).sum
        - (l.map fun x => x.1 * (s ^ (-2 : ℤ) * exp (-g.dis ^ 2 * s ^ 2) * erfintWith erf (x.2 * s))).sum
        = (l.map fun x => x.1 * (s ^ (-2 : ℤ) * exp (-g.dis ^ 2 * s ^ 2) * (|x.2 * s| * (gaussSum ab |x.2 * s| - erf |x.2 * s|)))).sum := by
      intro l
      induction l with
      | nil => simp
      | cons x l ih =>
        simp only [List.map_cons, List.sum_cons] at ih ⊢
        rw [← ih]
        unfold erfintWith
        ring
    have e2 : ∀ l : List (ℝ × ℝ), ε * (l.map fun x => |x.1| * |x.2|).sum * (exp (-g.dis ^ 2 * s ^ 2) / s)
        = (l.map fun x => |x.1| * |x.2| * (ε * (exp (-g.dis ^ 2 * s ^ 2) / s))).sum := by
      intro l
      rw [List.sum_map_mul_right]
      ring
    rw [e1, e2]
    refine sum_abs_le _ fun x _ => ?_
    rw [abs_mul, abs_mul, abs_mul, abs_mul, abs_abs, abs_mul x.2 s, abs_of_pos h0, abs_of_pos (exp_pos _), abs_of_pos (zpow_pos h0 _)]
    have h3 : |x.2| * |gaussSum ab (|x.2| * s) - erf (|x.2| * s)| ≤ |x.2| * ε := by
      rcases eq_or_lt_of_le (abs_nonneg x.2) with h | h
      · rw [← h]; simp
      · exact mul_le_mul_of_nonneg_left (hε _ (by positivity)) h.le
    have h4 : s ^ (-2 : ℤ) * s = 1 / s := by
      rw [zpow_neg]; norm_cast; field_simp
    calc |x.1| * (s ^ (-2 : ℤ) * exp (-g.dis ^ 2 * s ^ 2) * (|x.2| * s * |gaussSum ab (|x.2| * s) - erf (|x.2| * s)|))
        = |x.1| * exp (-g.dis ^ 2 * s ^ 2) * (s ^ (-2 : ℤ) * s) * (|x.2| * |gaussSum ab (|x.2| * s) - erf (|x.2| * s)|) := by ring
      _ = |x.1| * exp (-g.dis ^ 2 * s ^ 2) * (1 / s) * (|x.2| * |gaussSum ab (|x.2| * s) - erf (|x.2| * s)|) := by rw [h4]
      _ ≤ |x.1| * exp (-g.dis ^ 2 * s ^ 2) * (1 / s) * (|x.2| * ε) := mul_le_mul_of_nonneg_left h3 (by positivity)
      _ = _ := by ring
  refine (mul_le_mul_of_nonneg_left hI (by positivity)).trans (le_of_eq ?_)
  have := hg.dis
  rw [integral_const_mul, gauss_div_integral (by positivity) ha]
  have e : g.dis ^ 2 * lower alpha t ^ 2 = g.dis ^ 2 / (4 * alpha * t) := by
    unfold lower
    rw [div_pow, sq_sqrt (by linarith), one_pow]
    ring
  rw [e]
  field_simp
  norm_num
  exact Or.inl (by ring)

/-- Error from the exponential integral. -/
theorem exp1_error {ab : List (ℝ × ℝ)} (hb : ∀ c ∈ ab, 0 ≤ c.2) {t alpha : ℝ} (ht : 0 < alpha * t) {g : Pair} (hd : 0 < g.dis) (h2 : 0 < g.H2) (rea img : Bool)
    {e1 : ℝ → ℝ} {δ : ℝ} (hδ : ∀ x, 0 < x → |e1 x - E1 x| ≤ δ * E1 x) (h0 : 0 ≤ δ) :
    |approxWith e1 ab t alpha g rea img - approxWith E1 ab t alpha g rea img|
      ≤ g.spans rea img / (4 * g.H2) * (δ * (ab.map fun c => |c.1|).sum * E1 (g.dis ^ 2 / (4 * alpha * t))) := by
  have ha := lower_pos' ht
  obtain ⟨a, hA⟩ : ∃ a, a = lower alpha t := ⟨_, rfl⟩
  have hdis : (g.scaled alpha t).dis = a * g.dis := by rw [hA]; unfold Pair.scaled lower; ring
  have hH : (g.scaled alpha t).H2 = a * g.H2 := by rw [hA]; unfold Pair.scaled lower; ring
  have e : (a * g.dis) ^ 2 = g.dis ^ 2 / (4 * alpha * t) := by
    rw [hA]
    unfold lower
    rw [mul_pow, div_pow, sq_sqrt (by linarith), one_pow]
    ring
  unfold approxWith
  dsimp only
  rw [hdis, hH, pq_scaled, ← hA, ← mul_sub, add_sub_add_right_eq_sub, abs_mul]
  rw [← hA] at ha
  rw [abs_of_pos (by positivity)]
  obtain ⟨D, hD⟩ : ∃ D, D = (a * g.dis) ^ 2 := ⟨_, rfl⟩
  have hDp : 0 < D := by rw [hD]; positivity
  have h3 : ∀ qq, 0 ≤ qq → |expSum e1 ab D qq - expSum E1 ab D qq| ≤ (ab.map fun c => |c.1|).sum * (0.5 * (δ * E1 D)) := by
    intro qq hq
    have : expSum e1 ab D qq - expSum E1 ab D qq = (ab.map fun c => c.1 * (0.5 * (e1 (D + qq * c.2) - E1 (D + qq * c.2)))).sum := by
      unfold expSum
      generalize ab = l
      induction l with
      | nil => simp
      | cons x l ih =>
        simp only [List.map_cons, List.sum_cons] at ih ⊢
        rw [← ih]
        ring
    rw [this, ← List.sum_map_mul_right]
    refine sum_abs_le _ fun c hc => ?_
    have hx : D ≤ D + qq * c.2 := by have := mul_nonneg hq (hb c hc); linarith
    rw [abs_mul, abs_mul, abs_of_pos (by norm_num : (0 : ℝ) < 0.5)]
    refine mul_le_mul_of_nonneg_left (mul_le_mul_of_nonneg_left ?_ (by norm_num)) (abs_nonneg _)
    exact (hδ _ (hDp.trans_le hx)).trans (mul_le_mul_of_nonneg_left (E1_anti hDp hx) h0)
  have h4 : |G1 e1 ab (a * g.dis) ((g.pq rea img).map fun x => (x.1, a * x.2)) - G1 E1 ab (a * g.dis) ((g.pq rea img).map fun x => (x.1, a * x.2))|
      ≤ a * g.spans rea img * ((ab.map fun c => |c.1|).sum * (0.5 * (δ * E1 D))) := by
    have : ∀ l : List (ℝ × ℝ), G1 e1 ab (a * g.dis) (l.map fun x => (x.1, a * x.2)) - G1 E1 ab (a * g.dis) (l.map fun x => (x.1, a * x.2))
        = (l.map fun x => x.1 * (|a * x.2| * (expSum e1 ab D (|a * x.2| ^ 2) - expSum E1 ab D (|a * x.2| ^ 2)))).sum := by
      intro l
      unfold G1
      rw [← hD, List.map_map, List.map_map]
      induction l with
      | nil => simp
      | cons x l ih =>
        simp only [List.map_cons, List.sum_cons, Function.comp] at ih ⊢
        rw [← ih]
        ring
    rw [this, ← pq_spans, ← List.sum_map_mul_left, ← List.sum_map_mul_right]
    refine sum_abs_le _ fun x _ => ?_
    rw [abs_mul, abs_mul, abs_abs, abs_mul a x.2, abs_of_pos ha]
    calc |x.1| * (a * |x.2| * |expSum e1 ab D ((a * |x.2|) ^ 2) - expSum E1 ab D ((a * |x.2|) ^ 2)|)
        ≤ |x.1| * (a * |x.2| * ((ab.map fun c => |c.1|).sum * (0.5 * (δ * E1 D)))) := by
          have := h3 _ (sq_nonneg (a * |x.2|))
          gcongr
      _ = _ := by ring
  refine (mul_le_mul_of_nonneg_left h4 (by positivity)).trans (le_of_eq ?_)
  rw [← e, ← hD]
  field_simp
  ring

/-- **C89**: the approximation differs from the finite line source solution by at most the errors of the two functions that it replaces: the sum of Gaussians in
place of the error function, and the formula in place of the exponential integral. -/
theorem approx_error {ab : List (ℝ × ℝ)} (hb : ∀ c ∈ ab, 0 ≤ c.2) {t alpha : ℝ} (ht : 0 < alpha * t) {g : Pair} (hg : g.Ok) (rea img : Bool) {e1 : ℝ → ℝ} {ε δ : ℝ}
    (hε : ∀ x, 0 < x → |gaussSum ab x - erf x| ≤ ε) (hδ : ∀ x, 0 < x → |e1 x - E1 x| ≤ δ * E1 x) (h0 : 0 ≤ δ) :
    |approxWith e1 ab t alpha g rea img - fls t alpha g rea img|
      ≤ g.spans rea img / (4 * g.H2) * (ε + δ * (ab.map fun c => |c.1|).sum) * E1 (g.dis ^ 2 / (4 * alpha * t)) := by
  have h1 := gauss_error hb ht hg rea img hε
  have h2 := exp1_error hb ht hg.dis hg.H2 rea img hδ h0
  have h3 := abs_sub_le (approxWith e1 ab t alpha g rea img) (approxWith E1 ab t alpha g rea img) (fls t alpha g rea img)
  linarith

/-! ### The tables of coefficients -/

/-- Facts on the coefficients of one row of the tables. -/
def rowOk (N : ℕ) : Bool :=
  match aErf[N]?, bErf[N]? with
  | some a, some b => decide (a.length = N + 2) && decide (b.length = N + 2) && b.all (fun x => decide (0 ≤ x)) && decide ((a.map fun x => |x|).sum ≤ 2 + 1 / 10 ^ 7)
      && decide (|a.sum| ≤ 1 / 10 ^ 7) && decide (a.head? = some 1) && decide (b.head? = some 0) && a.tail.all (fun x => decide (x < 0)) && b.tail.all (fun x => decide (0 < x))
  | _, _ => false

theorem rows_ok : ∀ N, N < 25 → rowOk N = true := by decide +kernel

theorem tables_length : aErf.length = 25 ∧ bErf.length = 25 := ⟨rfl, rfl⟩

/-- A row of the tables. -/
theorem row {N : ℕ} (hN : N < 25) : ∃ a b : List ℚ, aErf[N]? = some (1 :: a) ∧ bErf[N]? = some (0 :: b) ∧ a.length = N + 1 ∧ b.length = N + 1 ∧
    (∀ x ∈ a, x < 0) ∧ (∀ x ∈ b, 0 < x) ∧ (a.map fun x => |x|).sum ≤ 1 + 1 / 10 ^ 7 ∧ |1 + a.sum| ≤ 1 / 10 ^ 7 := by
  have h := rows_ok N hN
  unfold rowOk at h
  split at h
  · rename_i a b ha hb
    simp only [Bool.and_eq_true, decide_eq_true_eq, List.all_eq_true] at h
    obtain ⟨⟨⟨⟨⟨⟨⟨⟨h1, h2⟩, -⟩, h3⟩, h4⟩, h5⟩, h6⟩, h7⟩, h8⟩ := h
    obtain ⟨a', rfl⟩ : ∃ a', a = 1 :: a' := by
      cases a with
      | nil => simp at h5
      | cons x l => simp at h5; exact ⟨l, by rw [h5]⟩
    obtain ⟨b', rfl⟩ : ∃ b', b = 0 :: b' := by
      cases b with
      | nil => simp at h6
      | cons x l => simp at h6; exact ⟨l, by rw [h6]⟩
    refine ⟨a', b', ha, hb, by simpa using h1, by simpa using h2, h7, h8, ?_, by simpa using h4⟩
    simp only [List.map_cons, List.sum_cons, abs_one] at h3
    linarith
  · exact absurd h (by simp)

theorem erfCoeffs_eq {N : ℤ} (h0 : 0 ≤ N) {a b : List ℚ} (ha : aErf[N.toNat]? = some (1 :: a)) (hb : bErf[N.toNat]? = some (0 :: b)) :
    erfCoeffs N = some ((1, 0) :: List.zipWith (fun (x y : ℚ) => ((x : ℝ), (y : ℝ))) a b) := by
  unfold erfCoeffs pyGet
  simp only [if_pos h0, ha, hb, Option.bind_some, Option.map_some, List.zipWith_cons_cons, Rat.cast_one, Rat.cast_zero]

/-- The coefficients for `N` terms: a constant and `N + 1` Gaussians. -/
theorem erfCoeffs_some {N : ℤ} (h0 : 0 ≤ N) (h1 : N ≤ 24) : ∃ l : List (ℝ × ℝ), erfCoeffs N = some ((1, 0) :: l) ∧ (l.length : ℤ) = N + 1 ∧
    (∀ c ∈ l, c.1 < 0 ∧ 0 < c.2) ∧ (l.map fun c => |c.1|).sum ≤ 1 + 1 / 10 ^ 7 ∧ |1 + (l.map fun c => c.1).sum| ≤ 1 / 10 ^ 7 := by
  obtain ⟨a, b, ha, hb, la, lb, pa, pb, s1, s2⟩ := row (N := N.toNat) (by omega)
  refine ⟨_, erfCoeffs_eq h0 ha hb, ?_, ?_, ?_, ?_⟩
  · rw [List.length_zipWith, la, lb]
    omega
  · intro c hc
    obtain ⟨i, hi, rfl⟩ := List.mem_iff_getElem.mp hc
    simp only [List.getElem_zipWith]
    rw [List.length_zipWith] at hi
    exact ⟨by exact_mod_cast pa _ (List.getElem_mem (by omega)), by exact_mod_cast pb _ (List.getElem_mem (by omega))⟩
  all_goals
    have hl : ∀ (f : ℝ → ℝ) (a b : List ℚ), a.length = b.length →
        (List.zipWith (fun (x y : ℚ) => ((x : ℝ), (y : ℝ))) a b).map (fun c => f c.1) = a.map fun x : ℚ => f x := by
      intro f a
      induction a with
      | nil => intro b _; simp
      | cons x a ih =>
        intro b h
        cases b with
        | nil => simp at h
        | cons y b => simp [ih b (by simpa using h)]
  · rw [hl (fun x => |x|) a b (by omega)]
    have : (a.map fun x : ℚ => |(x : ℝ)|) = (a.map fun x => |x|).map (Rat.cast : ℚ → ℝ) := by simp
    rw [this]
    have := (Rat.cast_le (K := ℝ)).mpr s1
    push_cast at this
    exact this
  · rw [hl (fun x => x) a b (by omega), show (a.map fun x : ℚ => (x : ℝ)) = a.map (Rat.cast : ℚ → ℝ) from rfl]
    have := (Rat.cast_le (K := ℝ)).mpr s2
    push_cast at this
    exact this

/-- **C52** (partial): every number of terms from 1 to 24 is accepted and usable; the approximation then has a constant and one more Gaussian than asked for. -/
theorem terms_usable_partial {N : ℤ} (h1 : 1 ≤ N) (h2 : N ≤ 24) : nFLSAccepted N ∧ (∀ t alpha g rea img, (approx t alpha g rea img N).isSome) ∧
    ∃ l : List (ℝ × ℝ), erfCoeffs N = some ((1, 0) :: l) ∧ (l.length : ℤ) = N + 1 ∧ ∀ c ∈ l, c.1 ≠ 0 ∧ c.2 ≠ 0 := by
  obtain ⟨l, h, hl, hc, -, -⟩ := erfCoeffs_some (N := N) (by omega) h2
  refine ⟨⟨h1, by omega⟩, fun t alpha g rea img => ?_, l, h, hl, fun c hm => ⟨(hc c hm).1.ne, (hc c hm).2.ne'⟩⟩
  unfold approx
  rw [h]
  rfl

/-- **C52** (violated): 25 terms are accepted by the check of the options but the approximation raises. -/
theorem terms_25_raise : nFLSAccepted 25 ∧ (∀ t alpha g rea img, approx t alpha g rea img 25 = none) ∧
    ∀ t alpha b1 b2 nodes rea img, Incl.approx t alpha b1 b2 nodes rea img 25 = none := by
  have h : erfCoeffs 25 = none := by
    unfold erfCoeffs pyGet
    rw [if_pos (by norm_num), List.getElem?_eq_none (by rw [tables_length.1]; norm_num)]
    rfl
  exact ⟨⟨by norm_num, le_rfl⟩, fun _ _ _ _ _ => by unfold approx; rw [h]; rfl, fun _ _ _ _ _ _ _ => by unfold Incl.approx; rw [h]; rfl⟩

/-! ### The code's own coefficients -/

/-- **C89** (with the coefficients of the code): the sum of Gaussians increases from nearly 0 to 1, as the error function does. -/
theorem coefficients_sound {N : ℤ} (h0 : 0 ≤ N) (h1 : N ≤ 24) : ∃ ab, erfCoeffs N = some ab ∧ |gaussSum ab 0| ≤ 1 / 10 ^ 7 ∧
    (∀ x y, 0 ≤ x → x < y → gaussSum ab x < gaussSum ab y) ∧ (∀ x, gaussSum ab x < 1) ∧ Filter.Tendsto (gaussSum ab) Filter.atTop (nhds 1) := by
  obtain ⟨l, h, hl, hc, -, hs⟩ := erfCoeffs_some h0 h1
  have e : ∀ x, gaussSum ((1, 0) :: l) x = 1 + gaussSum l x := fun x => by simp [gaussSum]
  have hne : l ≠ [] := by rintro rfl; simp at hl; omega
  refine ⟨_, h, ?_, ?_, ?_, ?_⟩
  · rw [e]
    simpa [gaussSum] using hs
  · intro x y hx hxy
    rw [e, e]
    refine add_lt_add_right (a := 1) ?_
    unfold gaussSum
    refine List.sum_lt_sum_of_ne_nil hne _ _ fun c hm => ?_
    obtain ⟨h1, h2⟩ := hc c hm
    refine mul_lt_mul_of_neg_left (exp_lt_exp.mpr ?_) h1
    nlinarith [mul_pos h2 (by nlinarith : 0 < y ^ 2 - x ^ 2)]
  · intro x
    rw [e]
    have : gaussSum l x < 0 := by
      unfold gaussSum
      have := List.sum_lt_sum_of_ne_nil hne (fun c : ℝ × ℝ => c.1 * exp (-c.2 * x ^ 2)) (fun _ => 0) fun c hm => mul_neg_of_neg_of_pos (hc c hm).1 (exp_pos _)
      simpa using this
    linarith
  · have ht : Filter.Tendsto (gaussSum l) Filter.atTop (nhds 0) := by
      have : ∀ l : List (ℝ × ℝ), (∀ c ∈ l, 0 < c.2) → Filter.Tendsto (gaussSum l) Filter.atTop (nhds 0) := by
        intro l
        induction l with
        | nil => intro _; exact tendsto_const_nhds
        | cons c l ih =>
          intro h
          have h2 := h c List.mem_cons_self
          have h3 : Filter.Tendsto (fun x : ℝ => exp (-c.2 * x ^ 2)) Filter.atTop (nhds 0) :=
            tendsto_exp_atBot.comp ((Filter.tendsto_pow_atTop two_ne_zero).const_mul_atTop_of_neg (by linarith))
          have := (h3.const_mul c.1).add (ih fun y hy => h y (List.mem_cons_of_mem _ hy))
          rw [mul_zero, add_zero] at this
          exact this
      exact this l fun c hm => (hc c hm).2
    have := ht.const_add 1
    simp only [add_zero] at this
    exact this.congr fun x => (e x).symm

/-- **C89** (the code): the error of `finite_line_source_approximation` for every usable number of terms. -/
theorem approx_close {N : ℤ} (h0 : 0 ≤ N) (h1 : N ≤ 24) {t alpha : ℝ} (ht : 0 < alpha * t) {g : Pair} (hg : g.Ok) (rea img : Bool) :
    ∃ ab v, erfCoeffs N = some ab ∧ approx t alpha g rea img N = some v ∧
      ∀ ε δ : ℝ, (∀ x, 0 < x → |gaussSum ab x - erf x| ≤ ε) → (∀ x, 0 < x → |exp1 x - E1 x| ≤ δ * E1 x) → 0 ≤ δ →
        |v - fls t alpha g rea img| ≤ g.spans rea img / (4 * g.H2) * (ε + 3 * δ) * E1 (g.dis ^ 2 / (4 * alpha * t)) := by
  obtain ⟨l, h, hl, hc, hs, -⟩ := erfCoeffs_some h0 h1
  refine ⟨_, _, h, by unfold approx; rw [h]; rfl, fun ε δ hε hδ hd => ?_⟩
  refine (approx_error (ab := (1, 0) :: l) (fun c hm => ?_) ht hg rea img hε hδ hd).trans ?_
  · rcases List.mem_cons.mp hm with rfl | hm
    · exact le_rfl
    · exact (hc c hm).2.le
  · have hsp : 0 ≤ g.spans rea img := by
      unfold Pair.spans
      cases rea <;> cases img <;> simp <;> positivity
    have := E1_nonneg (x := g.dis ^ 2 / (4 * alpha * t)) (by have := hg.dis; have : 0 < 4 * alpha * t := by linarith
                                                             positivity)
    have h2 := hg.H2
    have h3 : ((((1 : ℝ), (0 : ℝ)) :: l).map fun c => |c.1|).sum ≤ 3 := by
      simp only [List.map_cons, List.sum_cons, abs_one]
      linarith
    have h4 : δ * ((((1 : ℝ), (0 : ℝ)) :: l).map fun c => |c.1|).sum ≤ 3 * δ := by nlinarith
    gcongr

/-- The hypotheses can be met: the two functions are always within 3 of each other. -/
example : ∃ ab, erfCoeffs 10 = some ab ∧ ∃ ε : ℝ, ∀ x, 0 < x → |gaussSum ab x - erf x| ≤ ε := by
  obtain ⟨ab, h, h0, hm, h1, -⟩ := coefficients_sound (N := 10) (by norm_num) (by norm_num)
  refine ⟨ab, h, 3, fun x hx => ?_⟩
  have a1 := hm 0 x le_rfl hx
  have a2 := h1 x
  have a3 := abs_le.mp h0
  have b1 : 0 ≤ erfc x := mul_nonneg (by positivity) (setIntegral_nonneg measurableSet_Ioi fun _ _ => (exp_pos _).le)
  have b2 : 0 ≤ erf x := mul_nonneg (by positivity) (intervalIntegral.integral_nonneg hx.le fun _ _ => (exp_pos _).le)
  rw [erfc_eq] at b1
  rw [abs_le]
  constructor <;> linarith [a3.1]

/-! ### Reciprocity and superposition -/

theorem pq_swap (g : Pair) (rea img : Bool) (f : ℝ → ℝ) :
    ((g.swap.pq rea img).map fun x => x.1 * f |x.2|).sum = ((g.pq rea img).map fun x => x.1 * f |x.2|).sum := by
  have e1 : |g.D1 - g.D2 + g.H1| = |g.D2 - g.D1 - g.H1| := by rw [← abs_neg]; congr 1; ring
  have e2 : |g.D1 - g.D2| = |g.D2 - g.D1| := abs_sub_comm _ _
  have e3 : |g.D1 - g.D2 - g.H2| = |g.D2 - g.D1 + g.H2| := by rw [← abs_neg]; congr 1; ring
  have e4 : |g.D1 - g.D2 + g.H1 - g.H2| = |g.D2 - g.D1 + g.H2 - g.H1| := by rw [← abs_neg]; congr 1; ring
  have e6 : g.D1 + g.D2 = g.D2 + g.D1 := by ring
  have e8 : g.D2 + g.D1 + g.H1 + g.H2 = g.D2 + g.D1 + g.H2 + g.H1 := by ring
  unfold Pair.pq Pair.qAll Pair.qRea Pair.qImg Pair.swap
  cases rea <;> cases img <;> simp [e1, e2, e3, e4, e8, e6]
  all_goals ring

/-- The sums as one. -/
theorem approxWith_eq (e1 : ℝ → ℝ) (ab : List (ℝ × ℝ)) (t alpha : ℝ) (g : Pair) (rea img : Bool) : approxWith e1 ab t alpha g rea img
    = 0.5 / (g.scaled alpha t).H2 * (((g.scaled alpha t).pq rea img).map fun x => x.1 * (|x.2| * expSum e1 ab ((g.scaled alpha t).dis ^ 2) (|x.2| ^ 2)
      + ierfcTerm (g.scaled alpha t).dis |x.2|)).sum := by
  unfold approxWith G1 G3
  dsimp only
  congr 1
  rw [← List.sum_map_add]
  congr 1
  apply List.map_congr_left
  intro x _
  unfold ierfcTerm
  rw [abs_abs]
  ring

/-- **C90**: the approximation keeps the reciprocity of the solution, whatever the number of terms. -/
theorem approx_reciprocity (t alpha : ℝ) (g : Pair) (h1 : g.H1 ≠ 0) (h2 : g.H2 ≠ 0) (rea img : Bool) (N : ℤ) :
    (approx t alpha g rea img N).map (g.H2 * ·) = (approx t alpha g.swap rea img N).map (g.H1 * ·) := by
  unfold approx
  rw [Option.map_map, Option.map_map]
  congr 1
  funext ab
  simp only [Function.comp]
  have hs : g.swap.scaled alpha t = (g.scaled alpha t).swap := rfl
  rw [approxWith_eq, approxWith_eq, hs, pq_swap (g.scaled alpha t) rea img fun y => y * expSum exp1 ab ((g.scaled alpha t).swap.dis ^ 2) (y ^ 2) + ierfcTerm (g.scaled alpha t).swap.dis y]
  unfold Pair.swap Pair.scaled
  dsimp only
  rw [← mul_assoc, ← mul_assoc]
  congr 1
  field_simp

/-- **C90**: the approximation of the sum of the real and image sources is the sum of the approximations; it vanishes without source. -/
theorem approx_superposition (t alpha : ℝ) (g : Pair) {N : ℤ} {v : ℝ} (h : approx t alpha g true true N = some v) :
    ∃ r i, approx t alpha g true false N = some r ∧ approx t alpha g false true N = some i ∧ v = r + i ∧ approx t alpha g false false N = some 0 := by
  unfold approx at h ⊢
  obtain ⟨ab, hab, rfl⟩ := Option.map_eq_some_iff.mp h
  simp only [hab, Option.map_some, Option.some.injEq]
  refine ⟨_, _, rfl, rfl, ?_, ?_⟩
  · rw [approxWith_eq, approxWith_eq, approxWith_eq, ← mul_add]
    congr 1
    unfold Pair.pq Pair.qAll Pair.qRea Pair.qImg
    simp
    ring
  · rw [approxWith_eq]
    simp [Pair.pq]

example : (approx 3600 (1 / 10 ^ 6) samplePair true true 10).map (150 * ·) = (approx 3600 (1 / 10 ^ 6) samplePair.swap true true 10).map (100 * ·) :=
  approx_reciprocity _ _ samplePair (by norm_num [samplePair]) (by norm_num [samplePair]) true true 10

example : ∃ v, approx 3600 (1 / 10 ^ 6) samplePair true true 24 = some v :=
  Option.isSome_iff_exists.mp ((terms_usable_partial (N := 24) (by norm_num) le_rfl).2.1 _ _ _ _ _)

end Verif.FLS
