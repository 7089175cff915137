import Verif.Sol.StableProps
import Verif.Gf.ApproxFieldProps
import Verif.Gf.RefineProps
import Verif.FLS.LimitProps

/-!
# Property C135: the g-function with a uniform temperature and the approximation of the finite line source solution
-/

noncomputable section

namespace Verif.Gf

open Bore FLS Sol

variable {alpha rb thr : ℝ} {N : ℤ} {K K' : ℝ → Bool → Borehole → Borehole → ℝ} {bs : List Borehole} {ns : List ℕ} {rs : List (List ℝ)} {time : List ℝ}

theorem segment_reciprocal (hU : Upright rb bs) (h : Splits bs ns rs) (t : ℝ) : Reciprocal (segmentLengths bs ns rs) fun i j => segmentResponse alpha bs ns rs i j t := fun i j => by
  obtain ⟨-, r1, h1⟩ := segment_upright hU h (List.getElem_mem i.isLt)
  obtain ⟨-, r2, h2⟩ := segment_upright hU h (List.getElem_mem j.isLt)
  unfold segmentLengths segmentResponse
  exact reciprocity_boreholes t alpha _ _ (r2.trans r1.symm) h2.ne' h1.ne' true true

/-- The approximate response of one segment to another. -/
def segmentApprox (ab : List (ℝ × ℝ)) (alpha : ℝ) (bs : List Borehole) (ns : List ℕ) (rs : List (List ℝ)) (i j : Fin (segmentList bs ns rs).length) (t : ℝ) : ℝ :=
  approxPair ab alpha t (segmentList bs ns rs)[j] (segmentList bs ns rs)[i]

theorem approx_detailed {ab : List (ℝ × ℝ)} (hab : erfCoeffs N = some ab) (hK : ∀ t s r, approx t alpha (pairOf s r) true true N = some (K t true s r)) (hU : Upright rb bs)
    (h : Splits bs ns rs) (t : ℝ) : (Sol.detailed (K t) bs ns rs).isSome ∧
    ∀ i j : Fin (segmentList bs ns rs).length, ((Sol.detailed (K t) bs ns rs).getD fun _ _ => 0) i j = segmentApprox ab alpha bs ns rs i j t :=
  (approx_lineLike exp1 ab t alpha).detailed (K := K t) (fun s r => kernel_value hab hK t s r) hU h

theorem approx_sampled {ab : List (ℝ × ℝ)} (hab : erfCoeffs N = some ab) (hK : ∀ t s r, approx t alpha (pairOf s r) true true N = some (K t true s r)) (hU : Upright rb bs)
    (h : Splits bs ns rs) : Sampled (segmentApprox ab alpha bs ns rs) (responses K bs ns rs) := fun tl i j => by
  unfold responses
  exact List.map_congr_left fun t _ => (approx_detailed hab hK hU h t).2 i j

/-- **C135** (with the approximation of the finite line source solution).  The g-function for a uniform temperature with the exact solution exists; the first value with the approximation (and those under the
threshold) differ from it by at most the mean, weighted by the heat extraction rates `Q` and `Q'` of the two runs, of the error `(e + 1/199) E1` of the response factors, where `e` is the tabulated bound for
the number of terms. -/
theorem temperature_approx_error (h0 : 0 ≤ N) (h1 : N ≤ 24) (ha : 0 < alpha) (hK : ∀ t s r, K t true s r = fls t alpha (pairOf s r) true true)
    (hK' : ∀ t s r, approx t alpha (pairOf s r) true true N = some (K' t true s r)) (hU : Upright rb bs) (h : Splits bs ns rs) (hsp : Spaced rb bs) (hpos : ∀ t ∈ time, 0 < t)
    (hs : time.Pairwise (· < ·)) (hthr : 0 < thr) {g' : List ℝ} {Qs' : List (Fin (segmentList bs ns rs).length → ℝ)} (hout' : temperatureDetailed K' bs ns rs time thr = some (g', Qs')) :
    ∃ g Qs e, temperatureDetailed K bs ns rs time thr = some (g, Qs) ∧ erfTol[N.toNat]? = some e ∧ ∀ (k : ℕ) (t : ℝ), time[k]? = some t → k = 0 ∨ t ≤ thr →
      ∃ (v v' : ℝ) (Q Q' : Fin (segmentList bs ns rs).length → ℝ), g[k]? = some v ∧ g'[k]? = some v' ∧
        Qs[k]? = some (fun i => if t ≤ thr then 1 + (Q i - 1) * t / thr else Q i) ∧ Qs'[k]? = some (fun i => if t ≤ thr then 1 + (Q' i - 1) * t / thr else Q' i) ∧
        |v' - v| * ∑ i, segmentLengths bs ns rs i ≤ underThreshold t thr * ((e + 1 / 199) *
          ∑ i, ∑ j, segmentLengths bs ns rs i * |Q i| * |Q' j| * spanResponse alpha (if t ≤ thr then thr else t) (segmentList bs ns rs)[j] (segmentList bs ns rs)[i]) := by
  obtain ⟨⟨g, Qs⟩, hout⟩ := temperature_returns ha hK hU h hsp hpos hs hthr
  obtain ⟨ab, hab⟩ : ∃ ab, erfCoeffs N = some ab := by obtain ⟨l, hl, -⟩ := erfCoeffs_some h0 h1; exact ⟨_, hl⟩
  obtain ⟨-, e, -, he, -⟩ := erf_error h0 h1
  refine ⟨g, Qs, e, hout, he, fun k t hk hkt => ?_⟩
  unfold temperatureDetailed at hout hout'
  rw [if_pos fun t _ => (detailed_value hK hU h t).1] at hout
  rw [if_pos fun t _ => (approx_detailed hab hK' hU h t).1] at hout'
  have hHpos : ∀ i, 0 < segmentLengths bs ns rs i := fun i => (segment_upright hU h (List.getElem_mem i.isLt)).2.2
  obtain ⟨v, v', Q, Q', g1, g2, q1, q2, hv, -⟩ := ubwt_stable (segments_nonempty hU h) hHpos (responses_sampled hK hU h) (approx_sampled hab hK' hU h)
    (fun t => segment_reciprocal hU h t) hpos hs hthr hout hout' hk hkt
  refine ⟨v, v', Q, Q', g1, g2, q1, q2, ?_⟩
  have ht := hpos t (List.mem_of_getElem? hk)
  have hu : 0 < underThreshold t thr := by unfold underThreshold; split_ifs <;> positivity
  obtain ⟨τ, hτ⟩ : ∃ τ, τ = if t ≤ thr then thr else t := ⟨_, rfl⟩
  have hτ0 : 0 < τ := by rw [hτ]; split_ifs <;> assumption
  rw [← hτ] at hv ⊢
  have hW : 0 ≤ ∑ i, segmentLengths bs ns rs i := Finset.sum_nonneg fun i _ => (hHpos i).le
  nth_rewrite 1 [← abs_of_nonneg hW]
  rw [← abs_mul, hv, abs_mul, abs_of_pos hu]
  refine mul_le_mul_of_nonneg_left ?_ hu.le
  rw [Finset.mul_sum]
  refine (Finset.abs_sum_le_sum_abs _ _).trans (Finset.sum_le_sum fun i _ => ?_)
  rw [Finset.mul_sum]
  refine (Finset.abs_sum_le_sum_abs _ _).trans (Finset.sum_le_sum fun j _ => ?_)
  obtain ⟨-, r2, h2⟩ := segment_upright hU h (List.getElem_mem j.isLt)
  have hok : (pairOf (segmentList bs ns rs)[j] (segmentList bs ns rs)[i]).Ok := pairOf_ok (by rw [show (segmentList bs ns rs)[j].rb = rb from r2]; exact hU.rb_pos) (hHpos j).le (hHpos i)
  obtain ⟨w, e', hw, he', hb⟩ := approx_accurate h0 h1 (mul_pos ha hτ0) hok true true
  rw [he] at he'
  obtain rfl := Option.some.inj he'
  unfold approx at hw
  rw [hab] at hw
  obtain rfl := Option.some.inj hw
  have hb' : |segmentApprox ab alpha bs ns rs i j τ - segmentResponse alpha bs ns rs i j τ|
      ≤ (e + 1 / 199) * spanResponse alpha τ (segmentList bs ns rs)[j] (segmentList bs ns rs)[i] := by
    refine hb.trans (le_of_eq ?_)
    unfold spanResponse
    rw [show (pairOf (segmentList bs ns rs)[j] (segmentList bs ns rs)[i]).H2 = (segmentList bs ns rs)[i].H from rfl,
      show (pairOf (segmentList bs ns rs)[j] (segmentList bs ns rs)[i]).dis = (segmentList bs ns rs)[j].distance (segmentList bs ns rs)[i] from rfl]
    ring
  rw [abs_mul, abs_mul, abs_mul, abs_of_pos (hHpos i)]
  have := mul_le_mul_of_nonneg_left hb' (mul_nonneg (mul_nonneg (hHpos i).le (abs_nonneg (Q i))) (abs_nonneg (Q' j)))
  linarith

/-! ### A case: one borehole with 10 terms of the approximation -/

def lone : List Borehole := [⟨100, 4, 1 / 10, 0, 0, 0, 0⟩]

theorem lone_upright : Upright (1 / 10) lone := ⟨by simp [lone], by simp [lone], by norm_num, by simp [lone], by simp [lone], by simp [lone]⟩

theorem lone_splits : Splits lone [1] [[1]] := by refine ⟨⟨?_, ?_⟩, ?_, ?_⟩ <;> simp [lone]

theorem lone_returns : ∃ out, temperatureDetailed approxKernel lone [1] [[1]] [2500] 1000 = some out := by
  obtain ⟨ab, hab⟩ : ∃ ab, erfCoeffs 10 = some ab := by obtain ⟨l, hl, -⟩ := erfCoeffs_some (N := 10) (by norm_num) (by norm_num); exact ⟨_, hl⟩
  have hd := approx_detailed hab approxKernel_value lone_upright lone_splits
  unfold temperatureDetailed
  rw [if_pos fun t _ => (hd t).1]
  have hS := approx_sampled hab approxKernel_value lone_upright lone_splits
  have htl : timeLong [2500] 1000 = [(2500 : ℝ)] := by norm_num [timeLong, pLong]
  have hi : Increasing 0 (timeLong [2500] 1000) := timeLong_increasing (by simp) (by simp) (by norm_num)
  refine ubwt_returns (segments_nonempty lone_upright lone_splits) _ hS hi fun m p hp hm => ?_
  have e : responses approxKernel lone [1] [[1]] (timeLong [2500] 1000) = fun i j => (timeLong [2500] 1000).map (segmentApprox ab (1 / 10 ^ 6) lone [1] [[1]] i j) := by
    funext i j; exact hS _ i j
  rw [e] at hm
  refine definite_step _ hi (fun t ht => ?_) hp hm
  rw [htl] at ht
  obtain rfl : t = 2500 := by simpa using ht
  have hlist : segmentList lone [1] [[1]] = lone := by simp [segmentList, segments_eq, segsFrom, lone, Borehole.segmentAt, Borehole.new]
  have hmem : ∀ i : Fin (segmentList lone [1] [[1]]).length, (segmentList lone [1] [[1]])[i] = ⟨100, 4, 1 / 10, 0, 0, 0, 0⟩ := fun i => by
    have : (segmentList lone [1] [[1]])[i] ∈ segmentList lone [1] [[1]] := List.getElem_mem i.isLt
    generalize (segmentList lone [1] [[1]])[i] = x at this ⊢
    rw [hlist] at this
    simpa [lone] using this
  obtain ⟨b, hb⟩ : ∃ b : Borehole, b = ⟨100, 4, 1 / 10, 0, 0, 0, 0⟩ := ⟨_, rfl⟩
  rw [← hb] at hmem
  have hbl : b ∈ lone := by rw [hb]; simp [lone]
  have hpos : 0 < approxPair ab (1 / 10 ^ 6) 2500 b b := by
    obtain ⟨v, e, hv, he, hacc⟩ := approx_accurate (N := 10) (by norm_num) (by norm_num) (t := 2500) (alpha := 1 / 10 ^ 6) (by norm_num) (lone_upright.ok hbl hbl) true true
    obtain rfl : (6e-5 : ℚ) = e := Option.some.inj he
    unfold approx at hv
    rw [hab] at hv
    obtain rfl := Option.some.inj hv
    have hu : FLS.Upright b := ⟨by rw [hb]; norm_num, by rw [hb]; norm_num, by rw [hb]; norm_num⟩
    have hlow := (near_infinite_line (alpha := 1 / 10 ^ 6) (by norm_num) hu (t := 2500) (by norm_num)).1
    have hE := E1_ge (x := 1) one_pos
    have hE0 : 0 < E1 1 := lt_of_lt_of_le (by positivity) hE
    have hsq : √(1 / 10 ^ 6 * 2500 / Real.pi) ≤ 1 := by
      rw [Real.sqrt_le_left (by norm_num), div_le_iff₀ Real.pi_pos]
      nlinarith [Real.pi_gt_three]
    rw [self_pair hu] at hacc hlow
    have hb1 : b.rb = 1 / 10 := by rw [hb]
    have hb2 : b.H = 100 := by rw [hb]
    have hb3 : b.D = 4 := by rw [hb]
    rw [hb1, hb2, hb3] at hacc hlow
    rw [show (1 / 10 : ℝ) ^ 2 / (4 * (1 / 10 ^ 6) * 2500) = 1 by norm_num] at hacc hlow
    unfold approxPair
    rw [self_pair hu, hb1, hb2, hb3]
    have hsp : (⟨1 / 10, 100, 4, 100, 4⟩ : Pair).spans true true = 632 := by norm_num [Pair.spans, abs_of_nonneg]
    rw [hsp] at hacc
    have h1 := (abs_le.mp hacc).1
    have h2 : (1 - 3 / 100) * (E1 1 / 2) ≤ (1 - 3 * √(1 / 10 ^ 6 * 2500 / Real.pi) / 100) * (E1 1 / 2) := by
      refine mul_le_mul_of_nonneg_right ?_ (by positivity)
      linarith
    push_cast at h1
    norm_num at h1
    norm_num at h2 hlow
    linarith
  have hc : ∀ i j, segmentApprox ab (1 / 10 ^ 6) lone [1] [[1]] i j 2500 = approxPair ab (1 / 10 ^ 6) 2500 b b := fun i j => by unfold segmentApprox; rw [hmem i, hmem j]
  have hlen : (segmentList lone [1] [[1]]).length = 1 := by rw [hlist]; rfl
  have : Subsingleton (Fin (segmentList lone [1] [[1]]).length) := ⟨fun a b => Fin.ext (by omega)⟩
  intro Q hQ
  obtain ⟨i, hi0⟩ := Function.ne_iff.mp hQ
  rw [Fintype.sum_subsingleton _ i, Fintype.sum_subsingleton _ i]
  beta_reduce
  rw [hc]
  unfold segmentLengths
  rw [hmem i]
  have : 0 < b.H := by rw [hb]; norm_num
  have hq : 0 < Q i ^ 2 := by have : Q i ≠ 0 := hi0; positivity
  have : 0 < b.H * Q i ^ 2 * approxPair ab (1 / 10 ^ 6) 2500 b b := by positivity
  nlinarith

example : ∃ g' Qs' g Qs v v', temperatureDetailed approxKernel lone [1] [[1]] [2500] 1000 = some (g', Qs') ∧ temperatureDetailed lineKernel lone [1] [[1]] [2500] 1000 = some (g, Qs) ∧
    g'[0]? = some v' ∧ g[0]? = some v := by
  obtain ⟨⟨g', Qs'⟩, h1⟩ := lone_returns
  obtain ⟨g, Qs, e, h2, -, h3⟩ := temperature_approx_error (N := 10) (alpha := 1 / 10 ^ 6) (K := lineKernel) (K' := approxKernel) (by norm_num) (by norm_num) (by norm_num) (fun _ _ _ => rfl)
    approxKernel_value lone_upright lone_splits (by simp [Spaced, lone]) (by simp) (by simp) (by norm_num) h1
  obtain ⟨v, v', -, -, h4, h5, -⟩ := h3 0 2500 rfl (Or.inl rfl)
  exact ⟨g', Qs', g, Qs, v, v', h1, h2, h5, h4⟩

end Verif.Gf
