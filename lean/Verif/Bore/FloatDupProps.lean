import Verif.Bore.FloatDupLemmas
import Verif.Bore.DupProps

/-!
# Property C155: duplicate boreholes with the arithmetic of the machine

C13 and C14 are about exact numbers.  The positions of a pair are computed from its index in the condensed vector of distances with a square root, and a single wrong rounding would name another
pair of boreholes.  With `binary64` the positions are exact for fields of up to `2²⁵` boreholes, and only pairs with a distance within a factor `1 ± 2⁻⁴⁸` of the radius can be judged
differently than with exact numbers.
-/

namespace Verif.Bore

open Verif.Num

/-- A computed distance below `r`, in terms of the exact distance. -/
theorem planDistFl_lt {a b : Borehole} {r : ℝ} (hr : 2 ^ (-400 : ℤ) ≤ r) :
    (planDist a b < (1 - 2 ^ (-48 : ℤ)) * r → planDistFl binary64 a b < r) ∧ (planDistFl binary64 a b < r → planDist a b < (1 + 2 ^ (-48 : ℤ)) * r) := by
  obtain ⟨h1, h2⟩ := planDistFl_near a b
  obtain ⟨v, hv⟩ : ∃ v : ℝ, v = 2 ^ (-50 : ℤ) := ⟨_, rfl⟩
  have hv0 : 0 < v := by rw [hv]; positivity
  have hv1 : v ≤ 1 / 100 := by rw [hv]; norm_num
  have h48 : (2 : ℝ) ^ (-48 : ℤ) = 4 * v := by rw [hv]; norm_num
  have hr0 : 0 < r := lt_of_lt_of_le (by positivity) hr
  have he : (2 : ℝ) ^ (-530 : ℤ) ≤ v * r := by
    have : (2 : ℝ) ^ (-530 : ℤ) ≤ v * 2 ^ (-400 : ℤ) := by
      rw [hv, ← zpow_add₀ (by norm_num)]; exact zpow_le_zpow_right₀ (by norm_num) (by norm_num)
    exact this.trans (mul_le_mul_of_nonneg_left hr hv0.le)
  rw [h48]
  rw [← hv] at h1 h2
  generalize (2 : ℝ) ^ (-530 : ℤ) = e at *
  have hvr : 0 < v * r := mul_pos hv0 hr0
  have hvvr : v * (v * r) ≤ 1 / 100 * (v * r) := mul_le_mul_of_nonneg_right hv1 hvr.le
  constructor
  · intro h
    have h3 := mul_lt_mul_of_pos_left h (by linarith : 0 < 1 + v)
    nlinarith
  · intro h
    by_contra hc
    push Not at hc
    have h3 := mul_le_mul_of_nonneg_left hc (by linarith : 0 ≤ 1 - v)
    nlinarith

/-- **C155** (`find_duplicates`).  For every field of one to `2²⁵` boreholes, the function returns, without repetition, pairs `(i, j)` of positions of the field with `i < j`: all pairs closer than
`1 - 2⁻⁴⁸` times the largest radius, and no pair farther than `1 + 2⁻⁴⁸` times this radius. -/
theorem find_duplicates_rounded (l : List Borehole) (hl : l ≠ []) (hn : l.length ≤ 2 ^ 25) (hrad : ∀ b ∈ l, 2 ^ (-400 : ℤ) ≤ b.rb) :
    ∃ ps r, findDuplicatesFl binary64 l = some ps ∧ IsMaxRadius l r ∧ ps.Nodup ∧ (∀ i j : ℕ, CloseAt l ((1 - 2 ^ (-48 : ℤ)) * r) i j → ((i : ℤ), (j : ℤ)) ∈ ps) ∧
      ∀ p ∈ ps, ∃ i j : ℕ, p = ((i : ℤ), (j : ℤ)) ∧ CloseAt l ((1 + 2 ^ (-48 : ℤ)) * r) i j := by
  obtain ⟨r, hr⟩ : ∃ r, maxRadius l = some r := by
    cases l with
    | nil => exact absurd rfl hl
    | cons b l => exact ⟨_, rfl⟩
  have hmax := maxRadius_spec l r hr
  have hr400 : 2 ^ (-400 : ℤ) ≤ r := by
    obtain ⟨b, hb, hbr⟩ := hmax.1
    rw [← hbr]; exact hrad b hb
  refine ⟨(closeIndices (pdistFl binary64 l) r).map (recoverFl binary64 l.length), r, by simp [findDuplicatesFl, hr], hmax, ?_, ?_, ?_⟩
  · apply List.Nodup.map_on
    · intro k hk k' hk' heq
      simp only [closeIndices, List.mem_filter, List.mem_range] at hk hk'
      obtain ⟨i, j, h1, h2, rfl⟩ := pdist_surj l k (pdistFl_length _ l ▸ hk.1)
      obtain ⟨i', j', h1', h2', rfl⟩ := pdist_surj l k' (pdistFl_length _ l ▸ hk'.1)
      rw [recoverFl_cidx _ _ _ hn h1 h2, recoverFl_cidx _ _ _ hn h1' h2'] at heq
      simp only [Prod.mk.injEq, Nat.cast_inj] at heq
      rw [heq.1, heq.2]
    · exact List.nodup_range.filter _
  · rintro i j ⟨hij, a, b, ha, hb, hc⟩
    obtain ⟨hj, hbj⟩ := List.getElem?_eq_some_iff.mp hb
    obtain ⟨hi, hai⟩ := List.getElem?_eq_some_iff.mp ha
    have hg := pdistFl_get binary64 l i j hij hj
    simp only [List.mem_map, closeIndices, List.mem_filter, List.mem_range, decide_eq_true_eq]
    refine ⟨cidx l.length i j, ⟨(List.getElem?_eq_some_iff.mp hg).1, ?_⟩, recoverFl_cidx _ _ _ hn hij hj⟩
    rw [List.getD_eq_getElem?_getD, hg, hai, hbj]
    exact (planDistFl_lt hr400).1 hc
  · intro p hp
    simp only [List.mem_map, closeIndices, List.mem_filter, List.mem_range, decide_eq_true_eq] at hp
    obtain ⟨k, ⟨hk, hlt⟩, rfl⟩ := hp
    obtain ⟨i, j, h1, h2, rfl⟩ := pdist_surj l k (pdistFl_length _ l ▸ hk)
    refine ⟨i, j, recoverFl_cidx _ _ _ hn h1 h2, h1, l[i]'(by omega), l[j], by simp, by simp, ?_⟩
    rw [List.getD_eq_getElem?_getD, pdistFl_get binary64 l i j h1 h2] at hlt
    exact (planDistFl_lt hr400).2 hlt

/-- **C155** (`remove_duplicates`).  The remaining boreholes are in the original order, start with the first one, no two of them are closer than `1 - 2⁻⁴⁸` times the largest radius, and a borehole
is only removed when an earlier one is closer than `1 + 2⁻⁴⁸` times this radius. -/
theorem remove_duplicates_rounded (l : List Borehole) (hl : l ≠ []) (hn : l.length ≤ 2 ^ 25) (hrad : ∀ b ∈ l, 2 ^ (-400 : ℤ) ≤ b.rb) :
    ∃ g r, removeDuplicatesFl binary64 l = some g ∧ IsMaxRadius l r ∧ g.Sublist l ∧ g.head? = l.head? ∧ g.Pairwise (fun a b => ¬ Close ((1 - 2 ^ (-48 : ℤ)) * r) a b) ∧
      ∀ j (b : Borehole), l[j]? = some b → b ∉ g → ∃ i, CloseAt l ((1 + 2 ^ (-48 : ℤ)) * r) i j := by
  obtain ⟨ps, r, h1, h2, -, h4, h5⟩ := find_duplicates_rounded l hl hn hrad
  obtain ⟨p, hp⟩ : ∃ p : Borehole × ℕ → Bool, p = fun q => decide ((q.2 : ℤ) ∉ ps.map (·.2)) := ⟨_, rfl⟩
  have hp1 : ∀ b i j, CloseAt l ((1 - 2 ^ (-48 : ℤ)) * r) i j → p (b, j) = false := by
    intro b i j hc
    rw [hp]
    simp only [decide_eq_false_iff_not, not_not]
    exact List.mem_map.mpr ⟨_, h4 i j hc, rfl⟩
  have hp2 : ∀ b j, p (b, j) = false → ∃ i, CloseAt l ((1 + 2 ^ (-48 : ℤ)) * r) i j := by
    intro b j h
    rw [hp] at h
    simp only [decide_eq_false_iff_not, not_not] at h
    obtain ⟨q, hq, hqj⟩ := List.mem_map.mp h
    obtain ⟨i, j', rfl, hc⟩ := h5 q hq
    have : j' = j := by simpa using hqj
    exact ⟨i, this ▸ hc⟩
  refine ⟨(l.zipIdx.filter p).map (·.1), r, by simp [removeDuplicatesFl, h1, hp], h2, ?_, ?_, ?_, ?_⟩
  · have := (List.filter_sublist (l := l.zipIdx) (p := p)).map (·.1)
    rwa [show l.zipIdx.map (·.1) = l from List.zipIdx_map_fst 0 l] at this
  · cases l with
    | nil => exact absurd rfl hl
    | cons b l =>
      have hp0 : p (b, 0) = true := by
        rw [← Bool.not_eq_false]
        intro h
        obtain ⟨i, hi, -⟩ := hp2 b 0 h
        omega
      rw [List.zipIdx_cons, List.filter_cons_of_pos hp0]
      rfl
  · rw [List.pairwise_map]
    refine List.Pairwise.imp_of_mem ?_ ((zipIdx_pairwise l).filter p)
    rintro ⟨a, i⟩ ⟨b, j⟩ ha hb hij hc
    rw [List.mem_filter] at ha hb
    have := hp1 b i j ⟨hij, a, b, List.mem_zipIdx_iff_getElem?.mp ha.1, List.mem_zipIdx_iff_getElem?.mp hb.1, hc⟩
    rw [this] at hb
    exact Bool.noConfusion hb.2
  · intro j b hb hg
    refine hp2 b j ?_
    rw [← Bool.not_eq_true]
    intro h
    exact hg (List.mem_map.mpr ⟨(b, j), List.mem_filter.mpr ⟨List.mem_zipIdx_iff_getElem?.mpr hb, h⟩, rfl⟩)

/-- Without rounding, the functions are those of C13 and C14. -/
example (l : List Borehole) : pdistFl id l = pdist l := by
  induction l with
  | nil => rfl
  | cons b l ih =>
    have : planDistFl id b = planDist b := by funext c; simp [planDistFl, planDist, pow_two]
    rw [pdistFl, pdist, ih, this]

/-- Non-vacuity: three boreholes, the third at the place of the first. -/
example : ∃ ps, findDuplicatesFl binary64 [Borehole.new 100 4 (1 / 8) 0 0 0 0, Borehole.new 100 4 (1 / 8) 5 0 0 0, Borehole.new 100 4 (1 / 8) 0 0 0 0] = some ps ∧ (0, 2) ∈ ps ∧ (0, 1) ∉ ps := by
  have h400 : (2 : ℝ) ^ (-400 : ℤ) ≤ 1 / 8 := by
    have : (2 : ℝ) ^ (-400 : ℤ) ≤ 2 ^ (-3 : ℤ) := zpow_le_zpow_right₀ (by norm_num) (by norm_num)
    exact this.trans (by norm_num)
  obtain ⟨ps, r, h1, h2, -, h4, h5⟩ := find_duplicates_rounded [Borehole.new 100 4 (1 / 8) 0 0 0 0, Borehole.new 100 4 (1 / 8) 5 0 0 0, Borehole.new 100 4 (1 / 8) 0 0 0 0] (by simp) (by simp)
    (by intro b hb; simp only [List.mem_cons, List.not_mem_nil, or_false] at hb; rcases hb with rfl | rfl | rfl <;> exact h400)
  have hr : r = 1 / 8 := by
    obtain ⟨b, hb, hbr⟩ := h2.1
    simp only [List.mem_cons, List.not_mem_nil, or_false] at hb
    rcases hb with rfl | rfl | rfl <;> exact hbr.symm
  subst hr
  refine ⟨ps, h1, h4 0 2 ⟨by norm_num, _, _, rfl, rfl, ?_⟩, fun hc => ?_⟩
  · unfold Close; norm_num [Borehole.new]
  · obtain ⟨i, j, hij, -, a, b, ha, hb, hcl⟩ := h5 _ hc
    simp only [Prod.mk.injEq] at hij
    have hi : i = 0 := by omega
    have hj : j = 1 := by omega
    subst hi hj
    simp only [List.getElem?_cons_zero, Option.some.injEq, List.getElem?_cons_succ] at ha hb
    subst ha hb
    unfold Close at hcl
    simp only [Borehole.new] at hcl
    rw [show ((0 : ℝ) - 5) ^ 2 + (0 - 0) ^ 2 = 5 ^ 2 by norm_num, Real.sqrt_sq (by norm_num)] at hcl
    norm_num at hcl

end Verif.Bore
