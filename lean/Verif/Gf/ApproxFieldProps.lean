import Verif.Gf.ApproxFieldLemmas

/-!
# Property C120: the g-function with the approximation of the finite line source solution
-/

noncomputable section

namespace Verif.Gf

open Bore FLS Sol

/-! ### Specification -/

/-- The approximate response of one borehole to another, each a single line. -/
def approxPair (ab : List (ℝ × ℝ)) (alpha t : ℝ) (b c : Borehole) : ℝ := approxWith exp1 ab t alpha (pairOf b c) true true

/-- The infinite line source (exponential integral) at the distance of two boreholes, times the distances over which the approximation is evaluated. -/
def spanResponse (alpha t : ℝ) (b c : Borehole) : ℝ := (pairOf b c).spans true true / (4 * c.H) * E1 (b.distance c ^ 2 / (4 * alpha * t))

/-! ### The approximation is an alternating sum over the ends -/

/-- One term of the approximation. -/
def endTerm (e1 : ℝ → ℝ) (ab : List (ℝ × ℝ)) (a d q : ℝ) : ℝ := 0.5 / a * (|a * q| * expSum e1 ab ((a * d) ^ 2) (|a * q| ^ 2) + ierfcTerm (a * d) (a * q))

theorem approx_lineLike (e1 : ℝ → ℝ) (ab : List (ℝ × ℝ)) (t alpha : ℝ) : LineLike (fun g => approxWith e1 ab t alpha g true true) (endTerm e1 ab (lower alpha t)) := by
  refine ⟨fun d q => ?_, fun g => ?_⟩
  · unfold endTerm ierfcTerm
    rw [mul_neg, abs_neg]
  · obtain ⟨a, hA⟩ : ∃ a, a = lower alpha t := ⟨_, rfl⟩
    have hdis : (g.scaled alpha t).dis = a * g.dis := by rw [hA]; unfold Pair.scaled lower; ring
    have hH : (g.scaled alpha t).H2 = a * g.H2 := by rw [hA]; unfold Pair.scaled lower; ring
    unfold approxWith
    dsimp only
    rw [hdis, hH, pq_scaled, ← hA]
    unfold G1 G3 endSum endTerm Pair.pq Pair.qAll
    simp only [Bool.and_self, if_true, List.zip_cons_cons, List.zip_nil_right, List.map_cons, List.map_nil, List.sum_cons, List.sum_nil]
    rw [div_mul_eq_div_div]
    ring

variable {alpha rb thr : ℝ} {N : ℤ} {K K' : ℝ → Bool → Borehole → Borehole → ℝ} {bs : List Borehole} {ns ns' : List ℕ} {rs rs' : List (List ℝ)} {time : List ℝ}

theorem kernel_value {ab : List (ℝ × ℝ)} (hab : erfCoeffs N = some ab) (hK : ∀ t s r, approx t alpha (pairOf s r) true true N = some (K t true s r)) (t : ℝ) (s r : Borehole) :
    K t true s r = approxWith exp1 ab t alpha (pairOf s r) true true := by
  have := hK t s r
  unfold approx at this
  rw [hab] at this
  exact (Option.some.inj this).symm

/-- **C120** (value).  With the approximation of the finite line source solution the g-function for a uniform heat extraction rate exists and is, over the threshold, the
mean approximate response of the field of undivided boreholes, and is linear in time below. -/
theorem uniform_approx_values {ab : List (ℝ × ℝ)} (hab : erfCoeffs N = some ab) (hK : ∀ t s r, approx t alpha (pairOf s r) true true N = some (K t true s r)) (hU : Upright rb bs)
    (h : Splits bs ns rs) (hs : time.Pairwise (· ≤ ·)) (thr : ℝ) :
    uniformDetailed K bs ns rs time thr
      = some (time.map fun t => if t ≤ thr then meanResponse (approxPair ab alpha thr) bs * t / thr else meanResponse (approxPair ab alpha t) bs) :=
  uniform_lineLike (F := fun t g => approxWith exp1 ab t alpha g true true) (fun t => approx_lineLike exp1 ab t alpha) (fun t s r => kernel_value hab hK t s r) hU h hs thr

/-- **C120** (discretization).  The numbers and lengths of the segments have no effect on it. -/
theorem uniform_approx_discretization (h0 : 0 ≤ N) (h1 : N ≤ 24) (hK : ∀ t s r, approx t alpha (pairOf s r) true true N = some (K t true s r)) (hU : Upright rb bs)
    (h : Splits bs ns rs) (h' : Splits bs ns' rs') (hs : time.Pairwise (· ≤ ·)) (thr : ℝ) : uniformDetailed K bs ns rs time thr = uniformDetailed K bs ns' rs' time thr := by
  obtain ⟨l, hl, -⟩ := erfCoeffs_some h0 h1
  rw [uniform_approx_values hl hK hU h hs thr, uniform_approx_values hl hK hU h' hs thr]

theorem mean_sub (f g : Borehole → Borehole → ℝ) (bs : List Borehole) : meanResponse f bs - meanResponse g bs = meanResponse (fun b c => f b c - g b c) bs := by
  unfold meanResponse totalResponse
  rw [← sub_div]
  congr 1
  have hin : ∀ l : List Borehole, ∀ c, (l.map fun b => f b c - g b c).sum = (l.map fun b => f b c).sum - (l.map fun b => g b c).sum := fun l c => by
    induction l with
    | nil => simp
    | cons b l ih => simp only [List.map_cons, List.sum_cons]; rw [ih]; ring
  simp only [hin]
  have hout : ∀ l : List Borehole, (l.map fun c => c.H * (bs.map fun b => f b c).sum).sum - (l.map fun c => c.H * (bs.map fun b => g b c).sum).sum
      = (l.map fun c => c.H * ((bs.map fun b => f b c).sum - (bs.map fun b => g b c).sum)).sum := fun l => by
    induction l with
    | nil => simp
    | cons c l ih => simp only [List.map_cons, List.sum_cons]; rw [← ih]; ring
  exact hout bs

theorem mean_const_mul (k : ℝ) (f : Borehole → Borehole → ℝ) (bs : List Borehole) : meanResponse (fun b c => k * f b c) bs = k * meanResponse f bs := by
  unfold meanResponse totalResponse
  rw [← mul_div_assoc, ← List.sum_map_mul_left]
  congr 2
  refine List.map_congr_left fun c _ => ?_
  rw [List.sum_map_mul_left]; ring

theorem mean_abs (hU : Upright rb bs) {f g : Borehole → Borehole → ℝ} (h : ∀ b ∈ bs, ∀ c ∈ bs, |f b c| ≤ g b c) : |meanResponse f bs| ≤ meanResponse g bs := by
  refine abs_le.mpr ⟨?_, mean_le hU fun b hb c hc => (abs_le.mp (h b hb c hc)).2⟩
  have := mean_le hU (f := fun b c => -1 * g b c) (g := f) fun b hb c hc => by have := (abs_le.mp (h b hb c hc)).1; linarith
  rw [mean_const_mul] at this
  linarith

/-- **C120** (error of the mean response). -/
theorem field_approx_error (h0 : 0 ≤ N) (h1 : N ≤ 24) (ha : 0 < alpha) (hU : Upright rb bs) : ∃ ab e, erfCoeffs N = some ab ∧ erfTol[N.toNat]? = some e ∧ ∀ t, 0 < t →
    |meanResponse (approxPair ab alpha t) bs - fieldResponse alpha bs t| ≤ (e + 1 / 199) * meanResponse (spanResponse alpha t) bs := by
  obtain ⟨l, hl, -⟩ := erfCoeffs_some h0 h1
  obtain ⟨-, e, -, he, -⟩ := erf_error h0 h1
  refine ⟨_, e, hl, he, fun t ht => ?_⟩
  unfold fieldResponse
  rw [mean_sub, ← mean_const_mul]
  refine mean_abs hU fun b hb c hc => ?_
  obtain ⟨v, e', hv, he', hb⟩ := approx_accurate h0 h1 (mul_pos ha ht) (hU.ok hb hc) true true
  rw [he] at he'
  obtain rfl := Option.some.inj he'
  unfold approx at hv
  rw [hl] at hv
  obtain rfl := Option.some.inj hv
  refine hb.trans (le_of_eq ?_)
  unfold spanResponse
  rw [show (pairOf b c).H2 = c.H from rfl, show (pairOf b c).dis = b.distance c from rfl]
  ring

/-- **C120** (error).  The g-function with the approximation of the finite line source solution and any discretization differs from that with the exact solution and any other
discretization by at most `e + 1/199` times the mean over the field of the infinite line source, weighted by the distances over which the approximation is evaluated, where `e`
is the tabulated bound for the number of terms; below the threshold the difference is this bound at the threshold, in proportion to time. -/
theorem uniform_approx_error (h0 : 0 ≤ N) (h1 : N ≤ 24) (ha : 0 < alpha) (hK : ∀ t s r, approx t alpha (pairOf s r) true true N = some (K t true s r))
    (hK' : ∀ t s r, K' t true s r = fls t alpha (pairOf s r) true true) (hU : Upright rb bs) (h : Splits bs ns rs) (h' : Splits bs ns' rs') (hs : time.Pairwise (· ≤ ·))
    (hpos : ∀ t ∈ time, 0 < t) (hthr : 0 < thr) :
    ∃ g g' e, uniformDetailed K bs ns rs time thr = some g ∧ uniformDetailed K' bs ns' rs' time thr = some g' ∧ erfTol[N.toNat]? = some e ∧
      ∀ (k : ℕ) (t : ℝ), time[k]? = some t → ∃ x x', g[k]? = some x ∧ g'[k]? = some x' ∧
        |x - x'| ≤ if t ≤ thr then (e + 1 / 199) * meanResponse (spanResponse alpha thr) bs * (t / thr) else (e + 1 / 199) * meanResponse (spanResponse alpha t) bs := by
  obtain ⟨ab, e, hab, he, hb⟩ := field_approx_error h0 h1 ha hU
  refine ⟨_, _, e, uniform_approx_values hab hK hU h hs thr, uniform_values hK' hU h' hs thr, he, fun k t hk => ?_⟩
  refine ⟨_, _, by rw [List.getElem?_map, hk]; rfl, by rw [List.getElem?_map, hk]; rfl, ?_⟩
  have ht := hpos t (List.mem_of_getElem? hk)
  dsimp only
  split_ifs with hc
  · rw [mul_div_assoc, mul_div_assoc, ← sub_mul, abs_mul, abs_of_pos (div_pos ht hthr)]
    exact mul_le_mul_of_nonneg_right (hb thr hthr) (div_pos ht hthr).le
  · exact hb t ht

/-! ### Boreholes of the same dimensions -/

/-- **C120** (boreholes of the same dimensions).  The weights are then `3/2 + 2 D/H` for every pair. -/
theorem span_identical (hU : Upright rb bs) {H D : ℝ} (hH : ∀ b ∈ bs, b.H = H) (hD : ∀ b ∈ bs, b.D = D) (t : ℝ) :
    meanResponse (spanResponse alpha t) bs = (3 / 2 + 2 * (D / H)) * ((bs.map fun c => (bs.map fun b => E1 (b.distance c ^ 2 / (4 * alpha * t))).sum).sum / bs.length) := by
  have hne : (bs.length : ℝ) ≠ 0 := by simpa using hU.ne
  obtain ⟨b0, hb0⟩ := List.exists_mem_of_ne_nil bs hU.ne
  have hHp : 0 < H := hH b0 hb0 ▸ hU.H b0 hb0
  have hDp : 0 ≤ D := hD b0 hb0 ▸ hU.D b0 hb0
  have hpair : ∀ b ∈ bs, ∀ c ∈ bs, spanResponse alpha t b c = (3 / 2 + 2 * (D / H)) * E1 (b.distance c ^ 2 / (4 * alpha * t)) := by
    intro b hb c hc
    unfold spanResponse Pair.spans pairOf
    simp only [if_true, hH b hb, hH c hc, hD b hb, hD c hc]
    rw [abs_of_nonneg (by linarith : 0 ≤ D - D + H), abs_of_nonneg (by linarith : 0 ≤ D - D), abs_of_nonpos (by linarith : D - D - H ≤ 0), abs_of_nonneg (by linarith : 0 ≤ D - D + H - H),
      abs_of_nonneg (by linarith : 0 ≤ D + D + H), abs_of_nonneg (by linarith : 0 ≤ D + D), abs_of_nonneg (by linarith : 0 ≤ D + D + H + H)]
    field_simp
    ring
  have hT : (bs.map Borehole.H).sum = bs.length * H := by
    rw [List.map_congr_left hH, List.map_const', List.sum_replicate, nsmul_eq_mul]
  unfold meanResponse totalResponse
  rw [hT, List.map_congr_left (g := fun c => H * (3 / 2 + 2 * (D / H)) * (bs.map fun b => E1 (b.distance c ^ 2 / (4 * alpha * t))).sum) fun c hc => by
    rw [hH c hc, List.map_congr_left (fun b hb => hpair b hb c hc), List.sum_map_mul_left]; ring]
  rw [List.sum_map_mul_left]
  field_simp

/-! ### Cases -/

/-- The approximation with 10 terms. -/
def approxKernel (t : ℝ) (_ : Bool) (s r : Borehole) : ℝ := (approx t (1 / 10 ^ 6) (pairOf s r) true true 10).getD 0

theorem approxKernel_value (t : ℝ) (s r : Borehole) : approx t (1 / 10 ^ 6) (pairOf s r) true true 10 = some (approxKernel t true s r) := by
  obtain ⟨l, hl, -⟩ := erfCoeffs_some (N := 10) (by norm_num) (by norm_num)
  unfold approxKernel approx
  rw [hl]
  rfl

/-- Two boreholes, the first of two segments against undivided boreholes: at the third time. -/
example : ∃ g g' x x', uniformDetailed approxKernel fieldA [2, 1] [[1 / 4, 3 / 4], [1]] [10 ^ 3, 10 ^ 6, 10 ^ 9] (10 ^ 4) = some g ∧
    uniformDetailed lineKernel fieldA [1, 1] [[1], [1]] [10 ^ 3, 10 ^ 6, 10 ^ 9] (10 ^ 4) = some g' ∧ g[2]? = some x ∧ g'[2]? = some x' ∧
    |x - x'| ≤ ((6e-5 : ℚ) + 1 / 199) * meanResponse (spanResponse (1 / 10 ^ 6) (10 ^ 9)) fieldA := by
  obtain ⟨g, g', e, h1, h2, h3, h4⟩ := uniform_approx_error (N := 10) (alpha := 1 / 10 ^ 6) (K := approxKernel) (K' := lineKernel) (by norm_num) (by norm_num) (by norm_num)
    approxKernel_value (fun _ _ _ => rfl) fieldA_upright fieldA_splits fieldA_whole (time := [10 ^ 3, 10 ^ 6, 10 ^ 9]) (thr := 10 ^ 4) (by simp; norm_num) (by simp) (by norm_num)
  obtain ⟨x, x', h5, h6, h7⟩ := h4 2 (10 ^ 9) rfl
  rw [if_neg (by norm_num)] at h7
  obtain rfl : (6e-5 : ℚ) = e := Option.some.inj h3
  exact ⟨g, g', x, x', h1, h2, h5, h6, h7⟩

example : uniformDetailed approxKernel fieldA [2, 1] [[1 / 4, 3 / 4], [1]] [10 ^ 6] 0 = uniformDetailed approxKernel fieldA [1, 1] [[1], [1]] [10 ^ 6] 0 :=
  uniform_approx_discretization (by norm_num) (by norm_num) approxKernel_value fieldA_upright fieldA_splits fieldA_whole (by simp) 0

example (t : ℝ) : meanResponse (spanResponse (1 / 10 ^ 6) t) fieldB
    = (3 / 2 + 2 * (4 / 100)) * ((fieldB.map fun c => (fieldB.map fun b => E1 (b.distance c ^ 2 / (4 * (1 / 10 ^ 6) * t))).sum).sum / 2) :=
  span_identical fieldB_upright (H := 100) (D := 4) (by simp [fieldB]) (by simp [fieldB]) t

end Verif.Gf
