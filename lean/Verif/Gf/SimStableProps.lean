import Verif.Gf.SimTempProps
import Verif.Gf.StableFieldProps

/-!
# Property C140: error of the g-function for a uniform temperature when the `similarities` solver merges distances
-/

noncomputable section

namespace Verif.Gf

open Bore FLS Sol Finset

variable {S : Sim} {alpha thr : ℝ} {K : ℝ → Bool → Borehole → Borehole → ℝ} {dist : List (ℕ × ℕ) → List ℝ × (ℕ → ℕ)} {time : List ℝ}

/-- The errors of the responses to the segments of a borehole, each at its own distance within the tolerance, have a sum that does not depend on the number of segments. -/
theorem sources_close_abs (h : SimDivided S) {t : ℝ} (hα : 0 < alpha) (ht : 0 < t) {k : ℕ} (hk : k < S.N) {x tol H2 D2 : ℝ} (hx : 0 < x) (h0 : 0 ≤ tol) (h1 : tol < 1) (hH : 0 < H2)
    (hD : 0 ≤ D2) {d : ℕ → ℝ} (hd : ∀ a < S.ns k, |d a - x| ≤ tol * x) :
    ∑ a ∈ range (S.ns k), |fls t alpha ⟨d a, (S.seg k a).H, (S.seg k a).D, H2, D2⟩ true true - fls t alpha ⟨x, (S.seg k a).H, (S.seg k a).D, H2, D2⟩ true true|
      ≤ 2 * Real.log (1 / (1 - tol)) := by
  have hlo : 0 < (1 - tol) * x := mul_pos (by linarith) hx
  have hb : ∀ a < S.ns k, ∀ e, |e - x| ≤ tol * x → fls t alpha ⟨(1 + tol) * x, (S.seg k a).H, (S.seg k a).D, H2, D2⟩ true true ≤ fls t alpha ⟨e, (S.seg k a).H, (S.seg k a).D, H2, D2⟩ true true ∧
      fls t alpha ⟨e, (S.seg k a).H, (S.seg k a).D, H2, D2⟩ true true ≤ fls t alpha ⟨(1 - tol) * x, (S.seg k a).H, (S.seg k a).D, H2, D2⟩ true true := by
    intro a ha e he
    obtain ⟨l1, l2⟩ := abs_le.mp he
    have hg : (⟨1, (S.seg k a).H, (S.seg k a).D, H2, D2⟩ : Pair).Ok := ⟨one_pos, (seg_H_pos h hk ha).le, hH⟩
    have hlow : (1 - tol) * x ≤ e := by linarith
    have hup : e ≤ (1 + tol) * x := by linarith
    exact ⟨decreasing hα hg (seg_H_pos h hk ha) true (fun _ => ⟨seg_D_nonneg h hk ha, hD⟩) ht (hlo.trans_le hlow) hup,
      decreasing hα hg (seg_H_pos h hk ha) true (fun _ => ⟨seg_D_nonneg h hk ha, hD⟩) ht hlo hlow⟩
  have hsum : ∑ a ∈ range (S.ns k), |fls t alpha ⟨d a, (S.seg k a).H, (S.seg k a).D, H2, D2⟩ true true - fls t alpha ⟨x, (S.seg k a).H, (S.seg k a).D, H2, D2⟩ true true|
      ≤ ∑ a ∈ range (S.ns k), (fls t alpha ⟨(1 - tol) * x, (S.seg k a).H, (S.seg k a).D, H2, D2⟩ true true - fls t alpha ⟨(1 + tol) * x, (S.seg k a).H, (S.seg k a).D, H2, D2⟩ true true) := by
    refine Finset.sum_le_sum fun a ha => ?_
    have ha := Finset.mem_range.mp ha
    obtain ⟨p1, p2⟩ := hb a ha (d a) (hd a ha)
    obtain ⟨q1, q2⟩ := hb a ha x (by rw [sub_self, abs_zero]; positivity)
    rw [abs_le]
    constructor <;> linarith
  rw [Finset.sum_sub_distrib, sources_sum h t alpha hk hlo hH, sources_sum h t alpha hk (by positivity) hH] at hsum
  have hg : (⟨1, (S.bore k).H, (S.bore k).D, H2, D2⟩ : Pair).Ok := ⟨one_pos, (h.H k hk).le, hH⟩
  have c1 := close_log hα hg (h.H k hk) true (fun _ => ⟨h.D k hk, hD⟩) ht hx h0 h1 (e := (1 + tol) * x) (by rw [show x - (1 + tol) * x = -(tol * x) by ring, abs_neg, abs_of_nonneg (by positivity)])
  have c2 := close_log hα hg (h.H k hk) true (fun _ => ⟨h.D k hk, hD⟩) ht hx h0 h1 (e := (1 - tol) * x) (by rw [show x - (1 - tol) * x = tol * x by ring, abs_of_nonneg (by positivity)])
  change |fls t alpha ⟨x, (S.bore k).H, (S.bore k).D, H2, D2⟩ true true - fls t alpha ⟨(1 + tol) * x, (S.bore k).H, (S.bore k).D, H2, D2⟩ true true| ≤ _ at c1
  change |fls t alpha ⟨x, (S.bore k).H, (S.bore k).D, H2, D2⟩ true true - fls t alpha ⟨(1 - tol) * x, (S.bore k).H, (S.bore k).D, H2, D2⟩ true true| ≤ _ at c2
  have := (abs_le.mp c1).2
  have := (abs_le.mp c2).1
  linarith

theorem fit_divided {rb : ℝ} (hf : Fit S rb) : SimDivided S := ⟨hf.tilt, hf.H, hf.D, hf.len, hf.pos, hf.sum⟩

/-- **C140** (response factors).  The errors of all the response factors of one segment have a sum of at most `-2 log (1 - disTol)` for every other borehole, whatever the numbers of segments. -/
theorem similarities_rows {rb : ℝ} (hα : 0 < alpha) (hf : Fit S rb) (hS : S.Valid) (hE : S.Same) (htol : S.disTol < 1) (hdist : S.DistOk dist)
    (hK : ∀ t s r, K t true s r = fls t alpha (pairOf s r) true true) (t : ℝ) :
    ∃ M M', S.factors (fun g => fls t alpha g true true) dist = some M ∧ detailed (K t) (bores S) (counts S) (ratios S) = some M' ∧
      (0 < t → ∀ r < S.first S.N, ∑ c ∈ range (S.first S.N), |M r c - M' r c| ≤ (S.N - 1) * (2 * Real.log (1 / (1 - S.disTol)))) := by
  have hV := fit_divided hf
  obtain ⟨M, hM, h1⟩ := S.similarities_near t alpha hS hE hdist
  obtain ⟨M', hM', h2⟩ := S.detailed_entries t alpha hS hE (hK t)
  refine ⟨M, M', hM, hM', fun ht r hr => ?_⟩
  obtain ⟨l, hl, b, hb, rfl⟩ := S.first_exists hr
  rw [sum_blocks]
  have hx : ∀ k < S.N, ∀ l, 0 < (S.bore k).distance (S.bore l) := fun k hk l => distance_pos (hS.rad k hk) _
  have hnn : ∀ k, 0 ≤ ∑ a ∈ range (S.ns k), |M (b + S.first l) (a + S.first k) - M' (b + S.first l) (a + S.first k)| := fun k => Finset.sum_nonneg fun _ _ => abs_nonneg _
  have hpair : ∀ k < S.N, ∀ a < S.ns k, pairOf (S.seg k a) (S.seg l b) = ⟨(S.bore k).distance (S.bore l), (S.seg k a).H, (S.seg k a).D, (S.seg l b).H, (S.seg l b).D⟩ :=
    fun k hk a ha => S.pairOf_seg hE hk hl ha hb
  refine (le_abs_self _).trans (sum_except_le hl (fun k hk hkl => ?_) ?_)
  · rw [abs_of_nonneg (hnn k)]
    choose d hd using fun (a : ℕ) => (show ∃ d, a < S.ns k → M (b + S.first l) (a + S.first k) = fls t alpha ⟨d, (S.seg k a).H, (S.seg k a).D, (S.seg l b).H, (S.seg l b).D⟩ true true ∧
        |d - (S.bore k).distance (S.bore l)| ≤ S.disTol * (S.bore k).distance (S.bore l) from by
      by_cases ha : a < S.ns k
      · obtain ⟨d, e, -, h2⟩ := h1 k hk l hl a ha b hb
        exact ⟨d, fun _ => ⟨e, (h2 hkl).1⟩⟩
      · exact ⟨0, fun h => absurd h ha⟩)
    rw [Finset.sum_congr rfl fun a ha => by rw [(hd a (Finset.mem_range.mp ha)).1, h2 k hk l hl a (Finset.mem_range.mp ha) b hb, hpair k hk a (Finset.mem_range.mp ha)]]
    exact sources_close_abs hV hα ht hk (hx k hk l) hS.dis.le htol (seg_H_pos hV hl hb) (seg_D_nonneg hV hl hb) fun a ha => (hd a ha).2
  · refine Finset.sum_eq_zero fun a ha => ?_
    have ha := Finset.mem_range.mp ha
    obtain ⟨d, e, e1, -⟩ := h1 l hl l hl a ha b hb
    rw [e, e1 rfl, h2 l hl l hl a ha b hb, hpair l hl a ha, S.distance_self (hS.rad l hl), sub_self, abs_zero]

/-- **C140.**  When the similarities found are exact apart from the distances, the first value of the g-function for a uniform temperature with the `similarities` solver (and those under the
threshold) differ from those with the `detailed` solver by at most `-2 log (1 - disTol)` for every other borehole, times the largest of the heat extraction rates `Q'` with the `similarities` solver, when the
rates `Q` with the `detailed` solver are not negative; and times their mean absolute value for all rates. -/
theorem temperature_similarities_error {rb : ℝ} (hα : 0 < alpha) (hK : ∀ t s r, K t true s r = fls t alpha (pairOf s r) true true) (hf : Fit S rb) (hS : S.Valid) (hE : S.Same)
    (hsp : Spaced rb (bores S)) (htol : S.disTol < 1) (hdist : S.DistOk dist) (hpos : ∀ t ∈ time, 0 < t) (hs : time.Pairwise (· < ·)) (hthr : 0 < thr)
    {g' : List ℝ} {Qs' : List (Fin (segmentList (bores S) (counts S) (ratios S)).length → ℝ)}
    (hout' : temperatureSimilarities (fun t p => fls t alpha p true true) S dist (segmentList (bores S) (counts S) (ratios S)).length time thr = some (g', Qs')) :
    ∃ g Qs, temperatureDetailed K (bores S) (counts S) (ratios S) time thr = some (g, Qs) ∧ ∀ (k : ℕ) (t : ℝ), time[k]? = some t → k = 0 ∨ t ≤ thr →
      ∃ (v v' : ℝ) (Q Q' : Fin (segmentList (bores S) (counts S) (ratios S)).length → ℝ), g[k]? = some v ∧ g'[k]? = some v' ∧
        Qs[k]? = some (fun i => if t ≤ thr then 1 + (Q i - 1) * t / thr else Q i) ∧ Qs'[k]? = some (fun i => if t ≤ thr then 1 + (Q' i - 1) * t / thr else Q' i) ∧
        ∀ q, (∀ j, |Q' j| ≤ q) →
          |v' - v| * ∑ i, segmentLengths (bores S) (counts S) (ratios S) i
            ≤ underThreshold t thr * ((S.N - 1) * (2 * Real.log (1 / (1 - S.disTol)))) * q * ∑ i, segmentLengths (bores S) (counts S) (ratios S) i * |Q i| ∧
          ((∀ i, 0 ≤ Q i) → |v' - v| ≤ underThreshold t thr * ((S.N - 1) * (2 * Real.log (1 / (1 - S.disTol)))) * q) := by
  have hU := hf.upright
  have hsplit := hf.splits
  obtain ⟨⟨g, Qs⟩, hout⟩ := temperature_returns hα hK hU hsplit hsp hpos hs hthr
  refine ⟨g, Qs, hout, fun k t hk hkt => ?_⟩
  have hlen := sim_segmentList S hE.ratios
  have hn : (segmentList (bores S) (counts S) (ratios S)).length = S.first S.N := by rw [← sim_lengths_length, ← hlen, List.length_map]
  choose M M' hM hM' hrow using similarities_rows hα hf hS hE htol hdist hK
  unfold temperatureDetailed at hout
  rw [if_pos fun t _ => (detailed_value hK hU hsplit t).1] at hout
  unfold temperatureSimilarities temperatureOf at hout'
  beta_reduce at hout'
  rw [if_pos fun t _ => by rw [hM t]; rfl, ← hlen, lengths_fun] at hout'
  have hHpos : ∀ i, 0 < segmentLengths (bores S) (counts S) (ratios S) i := fun i => (segment_upright hU hsplit (List.getElem_mem i.isLt)).2.2
  have hF' : Sampled (fun (i j : Fin (segmentList (bores S) (counts S) (ratios S)).length) t => M t i j)
      (fun tl i j => tl.map fun t => ((S.factors (fun p => fls t alpha p true true) dist).getD fun _ _ => 0) i j) := fun tl i j => List.map_congr_left fun t _ => by rw [hM t]; rfl
  obtain ⟨v, v', Q, Q', g1, g2, q1, q2, hv, -⟩ := ubwt_stable (segments_nonempty hU hsplit) hHpos (responses_sampled hK hU hsplit) hF'
    (fun t => segment_reciprocal hU hsplit t) hpos hs hthr hout hout' hk hkt
  refine ⟨v, v', Q, Q', g1, g2, q1, q2, fun q hq => ?_⟩
  have ht := hpos t (List.mem_of_getElem? hk)
  have hu : 0 < underThreshold t thr := by unfold underThreshold; split_ifs <;> positivity
  obtain ⟨τ, hτ⟩ : ∃ τ, τ = if t ≤ thr then thr else t := ⟨_, rfl⟩
  have hτ0 : 0 < τ := by rw [hτ]; split_ifs <;> assumption
  rw [← hτ] at hv
  obtain ⟨C, hC⟩ : ∃ C, C = (S.N - 1) * (2 * Real.log (1 / (1 - S.disTol))) := ⟨_, rfl⟩
  rw [← hC]
  have hq0 : 0 ≤ q := (abs_nonneg _).trans (hq ⟨0, segments_nonempty hU hsplit⟩)
  have hresp : ∀ i j : Fin (segmentList (bores S) (counts S) (ratios S)).length, segmentResponse alpha (bores S) (counts S) (ratios S) i j τ = M' τ i j := fun i j => by
    have e := (detailed_value hK hU hsplit τ).2 i j
    rw [hM' τ] at e
    exact e.symm
  have hW : 0 < ∑ i, segmentLengths (bores S) (counts S) (ratios S) i := Finset.sum_pos (fun i _ => hHpos i) ⟨⟨0, segments_nonempty hU hsplit⟩, Finset.mem_univ _⟩
  have hsum : ∀ i : Fin (segmentList (bores S) (counts S) (ratios S)).length, ∑ j : Fin (segmentList (bores S) (counts S) (ratios S)).length, |M τ i j - M' τ i j| ≤ C := fun i => by
    have := hrow τ hτ0 i (by rw [← hn]; exact i.isLt)
    rw [← hC, ← hn, ← Fin.sum_univ_eq_sum_range (fun c => |M τ i c - M' τ i c|)] at this
    exact this
  have key : |v' - v| * ∑ i, segmentLengths (bores S) (counts S) (ratios S) i ≤ underThreshold t thr * C * q * ∑ i, segmentLengths (bores S) (counts S) (ratios S) i * |Q i| := by
    nth_rewrite 1 [← abs_of_pos hW]
    rw [← abs_mul, hv, abs_mul, abs_of_pos hu, mul_assoc, mul_assoc]
    refine mul_le_mul_of_nonneg_left ?_ hu.le
    rw [Finset.mul_sum, Finset.mul_sum]
    refine (Finset.abs_sum_le_sum_abs _ _).trans (Finset.sum_le_sum fun i _ => ?_)
    calc |∑ j : Fin (segmentList (bores S) (counts S) (ratios S)).length, segmentLengths (bores S) (counts S) (ratios S) i * Q i * (M τ i j - segmentResponse alpha (bores S) (counts S) (ratios S) i j τ) * Q' j|
        ≤ ∑ j : Fin (segmentList (bores S) (counts S) (ratios S)).length, segmentLengths (bores S) (counts S) (ratios S) i * |Q i| * q * |M τ i j - M' τ i j| := by
          refine (Finset.abs_sum_le_sum_abs _ _).trans (Finset.sum_le_sum fun j _ => ?_)
          rw [hresp, abs_mul, abs_mul, abs_mul, abs_of_pos (hHpos i)]
          have := mul_le_mul_of_nonneg_left (hq j) (mul_nonneg (mul_nonneg (hHpos i).le (abs_nonneg (Q i))) (abs_nonneg (M τ i j - M' τ i j)))
          linarith
      _ = segmentLengths (bores S) (counts S) (ratios S) i * |Q i| * q * ∑ j : Fin (segmentList (bores S) (counts S) (ratios S)).length, |M τ i j - M' τ i j| := by rw [Finset.mul_sum]
      _ ≤ segmentLengths (bores S) (counts S) (ratios S) i * |Q i| * q * C := mul_le_mul_of_nonneg_left (hsum i) (mul_nonneg (mul_nonneg (hHpos i).le (abs_nonneg _)) hq0)
      _ = C * (q * (segmentLengths (bores S) (counts S) (ratios S) i * |Q i|)) := by ring
  refine ⟨key, fun hQ => ?_⟩
  have hone : ∑ i, segmentLengths (bores S) (counts S) (ratios S) i * |Q i| = ∑ i, segmentLengths (bores S) (counts S) (ratios S) i := by
    have hm := (ubwt_mean_one hout).2.2.1 _ (List.mem_of_getElem? q1)
    rw [Finset.sum_congr rfl fun i _ => by rw [abs_of_nonneg (hQ i)]]
    unfold MeanOne at hm
    split_ifs at hm with hle
    · have e : ∀ i, segmentLengths (bores S) (counts S) (ratios S) i * (1 + (Q i - 1) * t / thr)
          = segmentLengths (bores S) (counts S) (ratios S) i + (segmentLengths (bores S) (counts S) (ratios S) i * Q i - segmentLengths (bores S) (counts S) (ratios S) i) * (t / thr) := fun i => by ring
      simp only [e] at hm
      rw [Finset.sum_add_distrib, ← Finset.sum_mul, Finset.sum_sub_distrib, add_eq_left, mul_eq_zero] at hm
      rcases hm with hm | hm
      · linarith
      · exact absurd hm (div_pos ht hthr).ne'
    · exact hm
  rw [hone] at key
  exact le_of_mul_le_mul_right key hW

/-! ### A case with merged distances -/

/-- Small responses between the boreholes give a definite form. -/
theorem dominant_definite {n : ℕ} {c a b : ℝ} (hc : 0 < c) {f : Fin n → Fin n → ℝ} (hd : ∀ i, a ≤ f i i) (ho : ∀ i j, i ≠ j → |f i j| ≤ b) (hab : (n - 1) * b < a) : Definite (fun _ => c) f := by
  intro Q hQ
  have hterm : ∀ i j, (if i = j then (a + b) * Q i ^ 2 else 0) - b * (Q i ^ 2 + Q j ^ 2) / 2 ≤ Q i * (f i j * Q j) := fun i j => by
    split_ifs with hij
    · subst hij
      nlinarith [mul_le_mul_of_nonneg_right (hd i) (sq_nonneg (Q i))]
    · obtain ⟨h1, h2⟩ := abs_le.mp (ho i j hij)
      nlinarith [mul_nonneg (sub_nonneg.mpr h2) (sq_nonneg (Q i - Q j)), mul_nonneg (show 0 ≤ f i j + b by linarith) (sq_nonneg (Q i + Q j))]
  have hsum := Finset.sum_le_sum fun i (_ : i ∈ (univ : Finset (Fin n))) => Finset.sum_le_sum fun j (_ : j ∈ (univ : Finset (Fin n))) => hterm i j
  have e : ∑ i, ∑ j, ((if i = j then (a + b) * Q i ^ 2 else 0) - b * (Q i ^ 2 + Q j ^ 2) / 2) = (a - (n - 1) * b) * ∑ i, Q i ^ 2 := by
    simp only [Finset.sum_sub_distrib, Finset.sum_ite_eq, Finset.mem_univ, if_true, ← Finset.sum_div, ← Finset.mul_sum, Finset.sum_add_distrib, Finset.sum_const, Finset.card_univ,
      Fintype.card_fin, nsmul_eq_mul]
    ring
  rw [e] at hsum
  have hpos : 0 < ∑ i, Q i ^ 2 := by
    obtain ⟨i, hi⟩ := Function.ne_iff.mp hQ
    exact Finset.sum_pos' (fun j _ => sq_nonneg _) ⟨i, Finset.mem_univ i, by have : Q i ≠ 0 := hi; positivity⟩
  have e2 : ∑ i, c * Q i * ∑ j, f i j * Q j = c * ∑ i, ∑ j, Q i * (f i j * Q j) := by
    rw [Finset.mul_sum]
    exact Finset.sum_congr rfl fun i _ => by rw [← Finset.mul_sum]; ring
  rw [e2]
  have : 0 < (a - (n - 1) * b) * ∑ i, Q i ^ 2 := mul_pos (by linarith) hpos
  exact mul_pos hc (lt_of_lt_of_le this hsum)

/-- Three boreholes whose distances 5 m and 5.02 m are merged, one segment each. -/
def bentRow : Sim := ⟨3, fun k => ⟨100, 4, 1 / 10, if k = 2 then 1002 / 100 else 5 * k, 0, 0, 0⟩, fun _ => 1, fun _ => uniformRatios 1, 1 / 10 ^ 6, 1 / 100⟩

theorem bentRow_identical : bentRow.Identical 100 4 (1 / 10) 1 :=
  ⟨by simp [bentRow], fun _ _ => rfl, fun _ _ => rfl, fun _ _ => rfl, fun _ _ => rfl, fun _ _ => rfl, fun _ _ => rfl, by norm_num, by norm_num [bentRow], by norm_num [bentRow]⟩

theorem bentRow_spaced : Spaced (1 / 10) (bores bentRow) := by
  rw [spaced_iff]
  intro k hk l hl hkl
  have hk : k < 3 := hk
  have hl : l < 3 := hl
  interval_cases k <;> interval_cases l <;> first | exact absurd rfl hkl | norm_num [bentRow]

theorem bentRow_far {k l : ℕ} (hk : k < 3) (hl : l < 3) (hkl : k ≠ l) : 5 ≤ (bentRow.bore k).distance (bentRow.bore l) := by
  unfold Borehole.distance
  refine le_max_of_le_right (Real.le_sqrt_of_sq_le ?_)
  interval_cases k <;> interval_cases l <;> first | exact absurd rfl hkl | norm_num [bentRow]

theorem bentRow_returns {dist : List (ℕ × ℕ) → List ℝ × (ℕ → ℕ)} (hdist : bentRow.DistOk dist) :
    ∃ out, temperatureSimilarities (fun t p => fls t (1 / 10 ^ 6) p true true) bentRow dist (segmentList (bores bentRow) (counts bentRow) (ratios bentRow)).length [10 ^ 6] 1000 = some out := by
  have hS := Sim.Identical.valid _ bentRow_identical
  have hE := Sim.Identical.same _ bentRow_identical
  have hlen := sim_segmentList bentRow hE.ratios
  have hn : (segmentList (bores bentRow) (counts bentRow) (ratios bentRow)).length = 3 := by
    have : (segmentList (bores bentRow) (counts bentRow) (ratios bentRow)).length = bentRow.first bentRow.N := by rw [← sim_lengths_length, ← hlen, List.length_map]
    rw [this]
    rfl
  choose M hM hv using fun t => bentRow.similarities_near t (1 / 10 ^ 6) hS hE hdist
  unfold temperatureSimilarities temperatureOf
  beta_reduce
  rw [if_pos fun t _ => by rw [hM t]; rfl, ← hlen, lengths_fun]
  have hF' : Sampled (fun (i j : Fin (segmentList (bores bentRow) (counts bentRow) (ratios bentRow)).length) t => M t i j)
      (fun tl i j => tl.map fun t => ((bentRow.factors (fun p => fls t (1 / 10 ^ 6) p true true) dist).getD fun _ _ => 0) i j) := fun tl i j => List.map_congr_left fun t _ => by rw [hM t]; rfl
  have hi : Increasing 0 (timeLong [10 ^ 6] 1000) := timeLong_increasing (by simp) (by simp) (by norm_num)
  have htl : timeLong [10 ^ 6] 1000 = [(10 ^ 6 : ℝ)] := by norm_num [timeLong, pLong]
  refine ubwt_returns (by omega) _ hF' hi fun m p hp hm => ?_
  have e : (fun (i j : Fin (segmentList (bores bentRow) (counts bentRow) (ratios bentRow)).length) => (timeLong [10 ^ 6] 1000).map fun t => ((bentRow.factors (fun p => fls t (1 / 10 ^ 6) p true true) dist).getD fun _ _ => 0) i j)
      = fun i j => (timeLong [10 ^ 6] 1000).map ((fun (i j : Fin (segmentList (bores bentRow) (counts bentRow) (ratios bentRow)).length) t => M t i j) i j) := by
    funext i j; exact hF' _ i j
  rw [e] at hm
  refine definite_step _ hi (fun t ht => ?_) hp hm
  rw [htl] at ht
  obtain rfl : t = 10 ^ 6 := by simpa using ht
  have hH : (fun i : Fin (segmentList (bores bentRow) (counts bentRow) (ratios bentRow)).length => (segmentList (bores bentRow) (counts bentRow) (ratios bentRow))[i].H) = fun _ => 100 := by
    funext i
    have : (segmentList (bores bentRow) (counts bentRow) (ratios bentRow))[i].H ∈ lengths bentRow := by
      rw [← hlen]
      exact List.mem_map_of_mem (List.getElem_mem i.isLt)
    unfold lengths at this
    obtain ⟨k, hk, hx⟩ := List.mem_flatMap.mp this
    obtain ⟨a, ha, hx⟩ := List.mem_map.mp hx
    have ha : a < 1 := List.mem_range.mp ha
    rw [← hx, (bentRow.seg_uniform (n := 1) rfl rfl ha).1]
    norm_num [bentRow]
  rw [hH]
  have hseg : ∀ k < 3, ((bentRow.seg k 0).H = 100 ∧ (bentRow.seg k 0).D = 4) := by
    intro k hk
    obtain ⟨h1, h2⟩ := bentRow.seg_uniform (k := k) (n := 1) (a := 0) rfl rfl (by norm_num)
    rw [h1, h2]
    norm_num [bentRow]
  have hidx : ∀ k, bentRow.first k = k := by
    intro k
    show ((List.range k).map fun _ => 1).sum = k
    simp
  have hent : ∀ k < 3, ∀ l < 3, ∃ d, M (10 ^ 6) l k = fls (10 ^ 6) (1 / 10 ^ 6) ⟨d, 100, 4, 100, 4⟩ true true ∧ (k = l → d = 1 / 10) ∧ (k ≠ l → 4 ≤ d) := fun k hk l hl => by
    obtain ⟨d, h1, h2, h3⟩ := hv (10 ^ 6) k hk l hl 0 (by show 0 < 1; norm_num) 0 (by show 0 < 1; norm_num)
    rw [hidx, hidx, zero_add, zero_add, (hseg k hk).1, (hseg k hk).2, (hseg l hl).1, (hseg l hl).2] at h1
    refine ⟨d, h1, h2, fun hkl => ?_⟩
    have := (abs_le.mp (h3 hkl).1).1
    have hfar := bentRow_far hk hl hkl
    have ht : bentRow.disTol = 1 / 100 := rfl
    rw [ht] at this
    linarith
  have hline : ∀ d : ℝ, 0 < d → FLS.Upright ⟨100, 4, d, 0, 0, 0, 0⟩ := fun d hd => ⟨hd, by norm_num, by norm_num⟩
  have hsq : √(1 / 10 ^ 6 * 10 ^ 6 / Real.pi) ≤ 1 := by
    rw [Real.sqrt_le_left (by norm_num), div_le_iff₀ Real.pi_pos]
    nlinarith [Real.pi_gt_three]
  have hself : 1 / 8 ≤ fls (10 ^ 6) (1 / 10 ^ 6) ⟨1 / 10, 100, 4, 100, 4⟩ true true := by
    have hlow := (near_infinite_line (alpha := 1 / 10 ^ 6) (by norm_num) (hline (1 / 10) (by norm_num)) (t := 10 ^ 6) (by norm_num)).1
    rw [self_pair (hline (1 / 10) (by norm_num))] at hlow
    refine le_trans ?_ hlow
    dsimp only
    have hE := E1_ge (x := 1 / 400) (by norm_num)
    have hexp : 1 - 1 / 400 ≤ Real.exp (-(1 / 400)) := by linarith [Real.add_one_le_exp (-(1 / 400))]
    have hE' : 1 / 2 ≤ E1 (1 / 400) := by
      refine le_trans ?_ hE
      rw [le_div_iff₀ (by norm_num)]
      linarith
    rw [show (1 / 10 : ℝ) ^ 2 / (4 * (1 / 10 ^ 6) * 10 ^ 6) = 1 / 400 by norm_num]
    nlinarith
  have hother : ∀ d, 4 ≤ d → |fls (10 ^ 6) (1 / 10 ^ 6) ⟨d, 100, 4, 100, 4⟩ true true| ≤ 1 / 32 := by
    intro d hd
    obtain ⟨h1, h2, -⟩ := near_infinite_line (alpha := 1 / 10 ^ 6) (by norm_num) (hline d (by linarith)) (t := 10 ^ 6) (by norm_num)
    rw [self_pair (hline d (by linarith))] at h1 h2
    dsimp only at h1 h2
    have hx : 4 ≤ d ^ 2 / (4 * (1 / 10 ^ 6) * 10 ^ 6) := by
      rw [le_div_iff₀ (by norm_num)]
      nlinarith
    have hE := (E1_anti (by norm_num) hx).trans (E1_le (x := 4) (by norm_num))
    have hE0 : 0 ≤ E1 (d ^ 2 / (4 * (1 / 10 ^ 6) * 10 ^ 6)) := le_trans (by positivity) (E1_ge (by linarith))
    have hexp : Real.exp (-4) ≤ 1 / 5 := by
      rw [Real.exp_neg, ← one_div]
      exact one_div_le_one_div_of_le (by norm_num) (by linarith [Real.add_one_le_exp 4])
    rw [abs_le]
    constructor
    · have : 0 ≤ (1 - 3 * √(1 / 10 ^ 6 * 10 ^ 6 / Real.pi) / 100) * (E1 (d ^ 2 / (4 * (1 / 10 ^ 6) * 10 ^ 6)) / 2) := mul_nonneg (by linarith) (by linarith)
      linarith
    · linarith
  refine dominant_definite (a := 1 / 8) (b := 1 / 32) (by norm_num) (fun i => ?_) (fun i j hij => ?_) (by rw [hn]; norm_num)
  · obtain ⟨d, h1, h2, -⟩ := hent i (by omega) i (by omega)
    rw [h1, h2 rfl]
    exact hself
  · obtain ⟨d, h1, -, h3⟩ := hent j (by omega) i (by omega)
    rw [h1]
    exact hother d (h3 fun h => hij (Fin.ext h.symm))

example : ∃ dist g' Qs' g Qs v v', bentRow.DistOk dist ∧
    temperatureSimilarities (fun t p => fls t (1 / 10 ^ 6) p true true) bentRow dist (segmentList (bores bentRow) (counts bentRow) (ratios bentRow)).length [10 ^ 6] 1000 = some (g', Qs') ∧
    temperatureDetailed lineKernel (bores bentRow) (counts bentRow) (ratios bentRow) [10 ^ 6] 1000 = some (g, Qs) ∧ g'[0]? = some v' ∧ g[0]? = some v := by
  obtain ⟨dist, hdist⟩ := bentRow.dist_exists (Sim.Identical.valid _ bentRow_identical)
  obtain ⟨⟨g', Qs'⟩, h1⟩ := bentRow_returns hdist
  obtain ⟨g, Qs, h2, h3⟩ := temperature_similarities_error (alpha := 1 / 10 ^ 6) (K := lineKernel) (by norm_num) (fun _ _ _ => rfl) (identical_fit bentRow_identical)
    (Sim.Identical.valid _ bentRow_identical) (Sim.Identical.same _ bentRow_identical) bentRow_spaced (by norm_num [bentRow]) hdist (by simp) (by simp) (by norm_num) h1
  obtain ⟨v, v', -, -, h4, h5, -⟩ := h3 0 (10 ^ 6) rfl (Or.inl rfl)
  exact ⟨dist, g', Qs', g, Qs, v, v', hdist, h1, h2, h5, h4⟩

end Verif.Gf
