import Verif.FLS.VertLemmas

/-!
# Lemmas: the responses of segments of distant boreholes form a positive definite array
-/

noncomputable section

namespace Verif.FLS

open Real MeasureTheory Set Filter Topology

variable {ι κ : Type*} [Fintype ι] [Fintype κ] [DecidableEq κ]

theorem vform_add (D H : ι → ℝ) (M N : ι → ι → ℝ) (a : ℝ) (c : ι → ℝ) (s : ℝ) : vform D H (fun i j => M i j + a * N i j) c s = vform D H M c s + a * vform D H N c s := by
  unfold vform
  rw [Finset.mul_sum, ← Finset.sum_add_distrib]
  refine Finset.sum_congr rfl fun i _ => ?_
  rw [Finset.mul_sum, ← Finset.sum_add_distrib]
  exact Finset.sum_congr rfl fun j _ => by ring

/-- The horizontal part of the integrand, for boreholes at `(X k, Y k)` of radius `r`. -/
def horiz (r : ℝ) (X Y : κ → ℝ) (s : ℝ) (k l : κ) : ℝ := if k = l then exp (-r ^ 2 * s ^ 2) else exp (-((X k - X l) ^ 2 + (Y k - Y l) ^ 2) * s ^ 2)

/-- Boreholes that are far from each other. -/
structure Sparse (r : ℝ) (X Y : κ → ℝ) (s0 : ℝ) : Prop where
  pos : 0 < s0
  small : r ^ 2 * s0 ^ 2 ≤ 3 / 25
  far : ∀ k l, k ≠ l → r ^ 2 ≤ (X k - X l) ^ 2 + (Y k - Y l) ^ 2
  sum : ∀ k, ∑ l ∈ Finset.univ.erase k, exp (-((X k - X l) ^ 2 + (Y k - Y l) ^ 2) * s0 ^ 2) ≤ exp (-r ^ 2 * s0 ^ 2) / 2

theorem horiz_psd_large {r : ℝ} {X Y : κ → ℝ} {s0 : ℝ} (h : Sparse r X Y s0) {s : ℝ} (hs : s0 ≤ s) :
    PSD fun k l => horiz r X Y s k l + -(exp (-r ^ 2 * s ^ 2) / 2) * if k = l then 1 else 0 := by
  have h0 := h.pos
  have hsq : s0 ^ 2 ≤ s ^ 2 := by gcongr
  refine PSD.dominant (fun k l => ?_) (fun k l hkl => ?_) fun k => ?_
  · unfold horiz
    by_cases hkl : k = l
    · rw [hkl]
    · rw [if_neg hkl, if_neg hkl, if_neg (Ne.symm hkl), if_neg (Ne.symm hkl), show (X k - X l) ^ 2 + (Y k - Y l) ^ 2 = (X l - X k) ^ 2 + (Y l - Y k) ^ 2 by ring]
  · unfold horiz
    rw [if_neg hkl, if_neg hkl]
    have := exp_pos (-((X k - X l) ^ 2 + (Y k - Y l) ^ 2) * s ^ 2)
    linarith
  · have e1 : ∀ l ∈ Finset.univ.erase k, horiz r X Y s k l + -(exp (-r ^ 2 * s ^ 2) / 2) * (if k = l then 1 else 0)
        ≤ exp (-r ^ 2 * s ^ 2) * exp (r ^ 2 * s0 ^ 2) * exp (-((X k - X l) ^ 2 + (Y k - Y l) ^ 2) * s0 ^ 2) := fun l hl => by
      have hkl : k ≠ l := (Finset.ne_of_mem_erase hl).symm
      unfold horiz
      rw [if_neg hkl, if_neg hkl, mul_zero, add_zero, ← exp_add, ← exp_add]
      refine exp_le_exp.mpr ?_
      nlinarith [mul_nonneg (sub_nonneg.mpr (h.far k l hkl)) (sub_nonneg.mpr hsq)]
    refine (Finset.sum_le_sum e1).trans ?_
    rw [← Finset.mul_sum]
    have hp : 0 < exp (-r ^ 2 * s ^ 2) * exp (r ^ 2 * s0 ^ 2) := by positivity
    refine (mul_le_mul_of_nonneg_left (h.sum k) hp.le).trans ?_
    have e2 : exp (-r ^ 2 * s ^ 2) * exp (r ^ 2 * s0 ^ 2) * (exp (-r ^ 2 * s0 ^ 2) / 2) = exp (-r ^ 2 * s ^ 2) / 2 := by
      rw [mul_assoc, ← mul_div_assoc, ← exp_add, show r ^ 2 * s0 ^ 2 + -r ^ 2 * s0 ^ 2 = 0 by ring, exp_zero]; ring
    rw [e2]
    simp only [horiz, if_true]
    linarith

theorem horiz_psd_small (r : ℝ) (X Y : κ → ℝ) (s : ℝ) : PSD fun k l => horiz r X Y s k l + r ^ 2 * s ^ 2 * if k = l then 1 else 0 := by
  have h1 : PSD fun k l : κ => 1 * exp (-(X k - X l) ^ 2 * s ^ 2) * exp (-(Y k - Y l) ^ 2 * s ^ 2) := (PSD.one.gauss X s).gauss Y s
  have h2 : 0 ≤ exp (-r ^ 2 * s ^ 2) - 1 + r ^ 2 * s ^ 2 := by
    have := add_one_le_exp (-r ^ 2 * s ^ 2)
    linarith
  have h3 := h1.add ((PSD.same (fun k : κ => k)).smul h2)
  convert h3 using 3 with k l
  unfold horiz
  by_cases hkl : k = l
  · rw [if_pos hkl, if_pos hkl, hkl]; simp; ring
  · rw [if_neg hkl, if_neg hkl, one_mul, ← exp_add, mul_zero, mul_zero]
    congr 2; ring

variable {D H : ι → ℝ} {bore : ι → κ}

/-- Segments in the ground, one above the other within each borehole. -/
structure Stacked (D H : ι → ℝ) (bore : ι → κ) : Prop where
  depth : ∀ i, 0 ≤ D i
  len : ∀ i, 0 < H i
  apart : ∀ i j, i ≠ j → bore i = bore j → D i + H i ≤ D j ∨ D j + H j ≤ D i

def sameBore (bore : ι → κ) (i j : ι) : ℝ := if bore i = bore j then 1 else 0

omit [Fintype κ] in
theorem block_pos (h : Stacked D H bore) {c : ι → ℝ} (hc : c ≠ 0) (m : ℝ) : ∃ s, m ≤ s ∧ 0 < vform D H (sameBore bore) c s := by
  classical
  have ht : Tendsto (vform D H (sameBore bore) c) atTop (𝓝 (∑ i, ∑ j, c i * c j * sameBore bore i j * overlap D H i j)) :=
    tendsto_finsetSum _ fun i _ => tendsto_finsetSum _ fun j _ => (vertOf_top D H i j).const_mul _
  have hv : 0 < ∑ i, ∑ j, c i * c j * sameBore bore i j * overlap D H i j := by
    have e : ∀ i, ∑ j, c i * c j * sameBore bore i j * overlap D H i j = 2 * H i * c i ^ 2 := fun i => by
      rw [Finset.sum_eq_single i]
      · rw [sameBore, if_pos rfl, overlap_self (h.depth i) (h.len i).le]; ring
      · intro j _ hj
        unfold sameBore
        by_cases hb : bore i = bore j
        · rw [overlap_apart (h.depth i) (h.len i).le (h.depth j) (h.len j).le (h.apart i j hj.symm hb), mul_zero]
        · rw [if_neg hb]; ring
      · intro hi; exact absurd (Finset.mem_univ i) hi
    simp only [e]
    obtain ⟨i, hi⟩ := Function.ne_iff.mp hc
    refine Finset.sum_pos' (fun i _ => by have := h.len i; positivity) ⟨i, Finset.mem_univ i, ?_⟩
    have := h.len i
    have hi : c i ≠ 0 := hi
    positivity
  obtain ⟨s, h1, h2⟩ := ((ht.eventually (lt_mem_nhds hv)).and (eventually_ge_atTop m)).exists
  exact ⟨s, h2, h1⟩

theorem split_tail {f : ℝ → ℝ} {a b : ℝ} (hf : IntegrableOn f (Ioi a)) (hab : a ≤ b) : ∫ s in Ioi a, f s = (∫ s in Ioc a b, f s) + ∫ s in Ioi b, f s := by
  rw [← Ioc_union_Ioi_eq_Ioi hab, setIntegral_union Ioc_disjoint_Ioi_same measurableSet_Ioi (hf.mono_set Ioc_subset_Ioi_self) (hf.mono_set (Ioi_subset_Ioi hab))]

theorem const_le {f : ℝ → ℝ} {a b v : ℝ} (hf : IntegrableOn f (Ioi a)) (hab : a ≤ b) (hv : ∀ s ∈ Ioc a b, v ≤ f s) : (b - a) * v ≤ ∫ s in Ioc a b, f s := by
  have := setIntegral_mono_on (f := fun _ => v) (g := f) (s := Ioc a b) (by simp) (hf.mono_set Ioc_subset_Ioi_self) measurableSet_Ioc hv
  simpa [hab] using this

/-- The quadratic form of the responses is positive. -/
theorem response_form_pos {r : ℝ} {X Y : κ → ℝ} {s0 : ℝ} (hS : Sparse r X Y s0) (h : Stacked D H bore) {c : ι → ℝ} (hc : c ≠ 0) {a : ℝ} (ha : 0 < a)
    (hf : IntegrableOn (fun s => vform D H (fun i j => horiz r X Y s (bore i) (bore j)) c s / s) (Ioi a)) :
    0 < ∫ s in Ioi a, vform D H (fun i j => horiz r X Y s (bore i) (bore j)) c s / s := by
  obtain ⟨f, hfd⟩ : ∃ f : ℝ → ℝ, f = fun s => vform D H (fun i j => horiz r X Y s (bore i) (bore j)) c s / s := ⟨_, rfl⟩
  obtain ⟨V, hV⟩ : ∃ V : ℝ → ℝ, V = vform D H (sameBore bore) c := ⟨_, rfl⟩
  rw [← hfd] at hf ⊢
  have hs0 := hS.pos
  have hsame : PSD (sameBore bore) := PSD.same bore
  have hVm : ∀ {s s' : ℝ}, 0 ≤ s → s ≤ s' → V s ≤ V s' := fun h1 h2 => by rw [hV]; exact vform_mono D H hsame c (Set.mem_Ici.mpr h1) (Set.mem_Ici.mpr (h1.trans h2)) h2
  have hV0 : ∀ {s : ℝ}, 0 ≤ s → 0 ≤ V s := fun h1 => by rw [hV]; exact vform_nonneg D H hsame c h1
  have hlarge : ∀ s, s0 ≤ s → exp (-r ^ 2 * s ^ 2) / 2 * V s / s ≤ f s := fun s hs => by
    have hsp := hs0.trans_le hs
    have := vform_nonneg D H ((horiz_psd_large hS hs).comap bore) c hsp.le
    have e := vform_add D H (fun i j => horiz r X Y s (bore i) (bore j)) (sameBore bore) (-(exp (-r ^ 2 * s ^ 2) / 2)) c s
    unfold sameBore at e
    rw [e] at this
    rw [hfd, hV]
    refine div_le_div_of_nonneg_right ?_ hsp.le
    unfold sameBore
    linarith
  have hsmall : ∀ s, 0 < s → -(r ^ 2 * s ^ 2) * V s / s ≤ f s := fun s hs => by
    have := vform_nonneg D H ((horiz_psd_small r X Y s).comap bore) c hs.le
    have e := vform_add D H (fun i j => horiz r X Y s (bore i) (bore j)) (sameBore bore) (r ^ 2 * s ^ 2) c s
    unfold sameBore at e
    rw [e] at this
    rw [hfd, hV]
    refine div_le_div_of_nonneg_right ?_ hs.le
    unfold sameBore
    linarith
  have hnn : ∀ s, s0 ≤ s → 0 ≤ f s := fun s hs => by
    refine le_trans ?_ (hlarge s hs)
    have h1 := hs0.trans_le hs
    have := hV0 h1.le
    positivity
  obtain ⟨s1, hm, hV1⟩ := block_pos h hc (max a (2 * s0))
  rw [← hV] at hV1
  have has1 : a ≤ s1 := (le_max_left _ _).trans hm
  have hs1 : 2 * s0 ≤ s1 := (le_max_right _ _).trans hm
  have htail : 0 < ∫ s in Ioi s1, f s := by
    rw [setIntegral_pos_iff_support_of_nonneg_ae _ (hf.mono_set (Ioi_subset_Ioi has1))]
    · have : Ioi s1 ⊆ Function.support f ∩ Ioi s1 := fun s hs => by
        refine ⟨ne_of_gt (lt_of_lt_of_le ?_ (hlarge s (by linarith [Set.mem_Ioi.mp hs]))), hs⟩
        have hs : s1 < s := hs
        have h1 : 0 < s := by linarith
        have := hV1.trans_le (hVm (by linarith) hs.le)
        positivity
      refine lt_of_lt_of_le ?_ (measure_mono this)
      simp
    · filter_upwards [ae_restrict_mem measurableSet_Ioi] with s hs
      exact hnn s (by linarith [Set.mem_Ioi.mp hs])
  rcases le_or_gt s0 a with hsa | hsa
  · rw [split_tail hf has1]
    have := setIntegral_nonneg (f := f) (μ := volume) measurableSet_Ioc fun s (hs : s ∈ Ioc a s1) => hnn s (hsa.trans hs.1.le)
    linarith
  · have hf1 := hf.mono_set (Ioi_subset_Ioi hsa.le)
    have hf2 := hf1.mono_set (Ioi_subset_Ioi (show s0 ≤ 2 * s0 by linarith))
    rw [split_tail hf hsa.le, split_tail hf1 (show s0 ≤ 2 * s0 by linarith), split_tail hf2 hs1]
    have p1 := const_le hf hsa.le (v := -(r ^ 2 * s0 * V s0)) fun s hs => by
      have hsp := ha.trans hs.1
      refine le_trans ?_ (hsmall s hsp)
      have e : -(r ^ 2 * s ^ 2) * V s / s = -(r ^ 2 * (s * V s)) := by field_simp
      rw [e, mul_assoc]
      have : s * V s ≤ s0 * V s0 := mul_le_mul hs.2 (hVm hsp.le hs.2) (hV0 hsp.le) hs0.le
      have := mul_le_mul_of_nonneg_left this (sq_nonneg r)
      linarith
    have p2 := const_le hf1 (show s0 ≤ 2 * s0 by linarith) (v := (1 - 4 * (r ^ 2 * s0 ^ 2)) / 2 * V s0 / (2 * s0)) fun s hs => by
      have hsp := hs0.trans hs.1
      refine le_trans ?_ (hlarge s hs.1.le)
      have h1 : 1 - 4 * (r ^ 2 * s0 ^ 2) ≤ exp (-r ^ 2 * s ^ 2) := by
        have := add_one_le_exp (-r ^ 2 * s ^ 2)
        have : s ^ 2 ≤ (2 * s0) ^ 2 := by have := hs.2; gcongr
        nlinarith [mul_le_mul_of_nonneg_left this (sq_nonneg r)]
      have h2 := hVm hs0.le hs.1.le
      have h3 := hV0 hs0.le
      have h4 : 0 ≤ 1 - 4 * (r ^ 2 * s0 ^ 2) := by linarith [hS.small]
      have h5 := hs.2
      have h6 := h3.trans h2
      have h7 : 0 ≤ exp (-r ^ 2 * s ^ 2) / 2 * V s := by positivity
      gcongr
    have p3 := setIntegral_nonneg (f := f) (μ := volume) measurableSet_Ioc fun s (hs : s ∈ Ioc (2 * s0) s1) => hnn s (by linarith [hs.1])
    have e2 : (2 * s0 - s0) * ((1 - 4 * (r ^ 2 * s0 ^ 2)) / 2 * V s0 / (2 * s0)) = (1 - 4 * (r ^ 2 * s0 ^ 2)) / 4 * V s0 := by field_simp; ring
    rw [e2] at p2
    have h3 := hV0 hs0.le
    have p1' : -(r ^ 2 * s0 ^ 2) * V s0 ≤ (s0 - a) * -(r ^ 2 * s0 * V s0) := by
      have : 0 ≤ a * (r ^ 2 * s0 * V s0) := by positivity
      nlinarith
    have h6 : r ^ 2 * s0 ^ 2 * V s0 ≤ (1 - 4 * (r ^ 2 * s0 ^ 2)) / 4 * V s0 := mul_le_mul_of_nonneg_right (by linarith [hS.small]) h3
    linarith

end Verif.FLS
