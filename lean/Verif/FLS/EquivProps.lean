import Verif.FLS.TimeProps
import Verif.Bore.DistProps

/-!
# Properties C20, C21, C23, C75: finite line source solution of equivalent boreholes

An equivalent borehole stands for a group of boreholes of the same length, depth and radius.  Its thermal response factor should be the mean over the boreholes of the
receiving group of the response to all boreholes of the emitting group.
-/

noncomputable section

namespace Verif.FLS

open Real MeasureTheory

/-! ### Specification -/

/-- The pair at another distance. -/
def Pair.at (g : Pair) (d : ℝ) : Pair := ⟨d, g.H1, g.D1, g.H2, g.D2⟩

/-- Mean over `N2` receivers of the response to all sources, for the list of all distances. -/
def groupResponse (t alpha : ℝ) (g : Pair) (all : List ℝ) (N2 : ℕ) (rea img : Bool) : ℝ := (all.map fun d => fls t alpha (g.at d) rea img).sum / N2

/-! ### Proof -/

theorem integrandEq_nil (g : Pair) (rea img : Bool) (s : ℝ) : integrandEq g [] rea img s = 0 := by
  cases rea <;> cases img <;> simp [integrandEq, weighted]

theorem integrandEq_cons (g : Pair) (d w : ℝ) (dw : List (ℝ × ℝ)) (rea img : Bool) (s : ℝ) :
    integrandEq g ((d, w) :: dw) rea img s = w * integrand (g.at d) rea img s + integrandEq g dw rea img s := by
  cases rea <;> cases img <;> simp [integrandEq, weighted, integrand, Pair.at, Pair.qAll, Pair.qRea, Pair.qImg] <;> ring

theorem at_ok {g : Pair} (hg : g.Ok) {d : ℝ} (hd : 0 < d) : (g.at d).Ok := ⟨hd, hg.H1, hg.H2⟩

theorem integrandEq_integrableOn {g : Pair} (hg : g.Ok) (dw : List (ℝ × ℝ)) (hd : ∀ x ∈ dw, 0 < x.1) (rea img : Bool) {a : ℝ} (ha : 0 ≤ a) :
    IntegrableOn (integrandEq g dw rea img) (Set.Ioi a) := by
  induction dw with
  | nil => rw [show integrandEq g [] rea img = fun _ => 0 from funext (integrandEq_nil g rea img)]; exact integrableOn_zero
  | cons x dw ih =>
    rw [show integrandEq g (x :: dw) rea img = fun s => x.2 * integrand (g.at x.1) rea img s + integrandEq g dw rea img s from
      funext (integrandEq_cons g x.1 x.2 dw rea img)]
    exact ((integrand_integrableOn (at_ok hg (hd x List.mem_cons_self)) rea img ha).const_mul _).add (ih fun y hy => hd y (List.mem_cons_of_mem _ hy))

theorem integrandEq_integral {g : Pair} (hg : g.Ok) (dw : List (ℝ × ℝ)) (hd : ∀ x ∈ dw, 0 < x.1) (rea img : Bool) {a : ℝ} (ha : 0 ≤ a) :
    quad (integrandEq g dw rea img) a none = (dw.map fun x => x.2 * quad (integrand (g.at x.1) rea img) a none).sum := by
  induction dw with
  | nil => simp [quad, integrandEq_nil]
  | cons x dw ih =>
    have h1 := (integrand_integrableOn (at_ok hg (hd x List.mem_cons_self)) rea img ha).const_mul x.2
    have h2 := integrandEq_integrableOn hg dw (fun y hy => hd y (List.mem_cons_of_mem _ hy)) rea img ha
    rw [List.map_cons, List.sum_cons, ← ih fun y hy => hd y (List.mem_cons_of_mem _ hy)]
    show ∫ s in Set.Ioi a, integrandEq g (x :: dw) rea img s = _
    rw [show integrandEq g (x :: dw) rea img = fun s => x.2 * integrand (g.at x.1) rea img s + integrandEq g dw rea img s from
      funext (integrandEq_cons g x.1 x.2 dw rea img), integral_add h1 h2, integral_const_mul]
    rfl

/-! ### Theorems -/

/-- The solution for equivalent boreholes is the weighted sum of the solutions for the distances, over the number of receivers. -/
theorem equivalent_sum (t alpha : ℝ) {g : Pair} (hg : g.Ok) (dw : List (ℝ × ℝ)) (hd : ∀ x ∈ dw, 0 < x.1) (N2 : ℕ) (rea img : Bool) :
    flsEq t alpha g dw N2 rea img = (dw.map fun x => x.2 * fls t alpha (g.at x.1) rea img).sum / N2 := by
  unfold flsEq
  rw [integrandEq_integral hg dw hd rea img (lower_nonneg _ _)]
  have e : ∀ x : ℝ × ℝ, x.2 * fls t alpha (g.at x.1) rea img = 0.5 / g.H2 * (x.2 * quad (integrand (g.at x.1) rea img) (lower alpha t) none) := fun x => by
    unfold fls; show x.2 * (0.5 / g.H2 * _) = _; ring
  simp only [e, List.sum_map_mul_left]
  ring

/-- **C20** (equivalent boreholes).  `N2 H2 h(1→2) = N1 H1 h(2→1)`. -/
theorem equivalent_reciprocity (t alpha : ℝ) {g : Pair} (hg : g.Ok) (h1 : 0 < g.H1) (dw : List (ℝ × ℝ)) (hd : ∀ x ∈ dw, 0 < x.1) {N1 N2 : ℕ} (hN1 : 0 < N1)
    (hN2 : 0 < N2) (rea img : Bool) : N2 * g.H2 * flsEq t alpha g dw N2 rea img = N1 * g.H1 * flsEq t alpha g.swap dw N1 rea img := by
  rw [equivalent_sum t alpha hg dw hd, equivalent_sum t alpha (g := g.swap) ⟨hg.dis, hg.H2.le, h1⟩ dw hd]
  have hN1' : (N1 : ℝ) ≠ 0 := by exact_mod_cast hN1.ne'
  have hN2' : (N2 : ℝ) ≠ 0 := by exact_mod_cast hN2.ne'
  have e : ∀ x : ℝ × ℝ, g.H2 * (x.2 * fls t alpha (g.at x.1) rea img) = g.H1 * (x.2 * fls t alpha (g.swap.at x.1) rea img) := fun x => by
    have := reciprocity t alpha (g.at x.1) h1.ne' hg.H2.ne' rea img
    have e' : (g.at x.1).swap = g.swap.at x.1 := rfl
    rw [e'] at this
    change g.H2 * _ = g.H1 * _ at this
    linear_combination x.2 * this
  have : g.H2 * (dw.map fun x => x.2 * fls t alpha (g.at x.1) rea img).sum = g.H1 * (dw.map fun x => x.2 * fls t alpha (g.swap.at x.1) rea img).sum := by
    rw [← List.sum_map_mul_left, ← List.sum_map_mul_left]
    simp only [e]
  field_simp
  linarith

/-- **C21** (equivalent boreholes). -/
theorem equivalent_real_plus_image (t alpha : ℝ) {g : Pair} (hg : g.Ok) (dw : List (ℝ × ℝ)) (hd : ∀ x ∈ dw, 0 < x.1) (N2 : ℕ) :
    flsEq t alpha g dw N2 true true = flsEq t alpha g dw N2 true false + flsEq t alpha g dw N2 false true ∧ flsEq t alpha g dw N2 false false = 0 := by
  simp only [equivalent_sum t alpha hg dw hd]
  constructor
  · rw [← add_div, ← List.sum_map_add]
    congr 2
    refine List.map_congr_left fun x hx => ?_
    rw [(real_plus_image t alpha (at_ok hg (hd x hx))).1, mul_add]
  · have : ∀ x : ℝ × ℝ, x.2 * fls t alpha (g.at x.1) false false = 0 := fun x => by unfold fls quad; simp [integrand_none]
    simp [this]

/-- **C23** (equivalent boreholes). -/
theorem equivalent_times_vector (times : List ℝ) (alpha : ℝ) {g : Pair} (hg : g.Ok) (dw : List (ℝ × ℝ)) (hd : ∀ x ∈ dw, 0 < x.1) (N2 : ℕ) (rea img : Bool) :
    flsEqMany times alpha g dw N2 rea img = times.map fun t => flsEq t alpha g dw N2 rea img := by
  unfold flsEqMany
  dsimp only
  rw [many_eq (fun a ha => integrandEq_integrableOn hg dw hd rea img ha) _
    (by intro a ha; obtain ⟨t, -, rfl⟩ := List.mem_map.mp ha; exact lower_nonneg _ _), List.map_map]
  rfl

/-! ### Decrease with distance -/

theorem integrand_at (g : Pair) (rea img : Bool) (d s : ℝ) :
    integrand (g.at d) rea img s = exp (-d ^ 2 * s ^ 2) * integrand (g.at 0) rea img s := by
  cases rea <;> cases img <;> simp [integrand, Pair.at, Pair.qAll, Pair.qRea, Pair.qImg] <;> ring

/-- The response decreases with distance. -/
theorem decreasing {alpha : ℝ} (ha : 0 < alpha) {g : Pair} (hg : g.Ok) (h1 : 0 < g.H1) (img : Bool) (hD : img = true → 0 ≤ g.D1 ∧ 0 ≤ g.D2) {t : ℝ} (ht : 0 < t) {d e : ℝ}
    (hd : 0 < d) (hde : d ≤ e) : fls t alpha (g.at e) true img ≤ fls t alpha (g.at d) true img := by
  have he := hd.trans_le hde
  have hl := lower_pos ha ht
  unfold fls
  show 0.5 / g.H2 * _ ≤ 0.5 / g.H2 * _
  refine mul_le_mul_of_nonneg_left ?_ (by have := hg.H2; positivity)
  refine setIntegral_mono_on (integrand_integrableOn (at_ok hg he) true img hl.le) (integrand_integrableOn (at_ok hg hd) true img hl.le) measurableSet_Ioi fun s hs => ?_
  have hs : 0 < s := hl.trans hs
  have hpos : 0 < integrand (g.at d) true img s := by
    cases img with
    | false => exact rea_pos (at_ok hg hd) h1 hs
    | true => exact all_pos (at_ok hg hd) h1 (hD rfl).1 (hD rfl).2 hs
  rw [integrand_at g true img d] at hpos
  rw [integrand_at g true img e, integrand_at g true img d]
  refine mul_le_mul_of_nonneg_right (exp_le_exp.mpr ?_) (pos_of_mul_pos_right hpos (exp_pos _).le).le
  have : d ^ 2 ≤ e ^ 2 := by nlinarith
  nlinarith [mul_le_mul_of_nonneg_right this (sq_nonneg s)]

/-! ### Grouped distances -/

theorem mean_bounds {a m : ℝ} (l : List ℝ) (hne : l ≠ []) (h : ∀ x ∈ l, a ≤ x ∧ x ≤ m) : a ≤ Bore.npMean l ∧ Bore.npMean l ≤ m := by
  have hlen : (0 : ℝ) < l.length := by exact_mod_cast List.length_pos_iff.mpr hne
  have h1 : ∀ l : List ℝ, (∀ x ∈ l, a ≤ x ∧ x ≤ m) → a * l.length ≤ l.sum ∧ l.sum ≤ m * l.length := by
    intro l
    induction l with
    | nil => simp
    | cons x l ih =>
      intro h
      obtain ⟨i1, i2⟩ := ih fun y hy => h y (List.mem_cons_of_mem _ hy)
      obtain ⟨j1, j2⟩ := h x List.mem_cons_self
      rw [List.sum_cons, List.length_cons]
      push_cast
      constructor <;> nlinarith
  obtain ⟨h2, h3⟩ := h1 l h
  unfold Bore.npMean
  exact ⟨(le_div_iff₀ hlen).mpr h2, (div_le_iff₀ hlen).mpr h3⟩

/-- The weighted sum over groups is between the sums over distances enlarged and reduced by the tolerance, for a decreasing function. -/
theorem grouped_bounds {tol : ℝ} (ht : 0 < tol) {f : ℝ → ℝ} (hf : ∀ d e, 0 < d → d ≤ e → f e ≤ f d) (gs : List (List ℝ)) (hg : Bore.Grouped tol gs)
    (hpos : ∀ x ∈ gs.flatten, 0 < x) :
    (gs.flatten.map fun x => f ((1 + tol) * x)).sum ≤ (gs.map fun g => (g.length : ℝ) * f (Bore.npMean g)).sum ∧
    (gs.map fun g => (g.length : ℝ) * f (Bore.npMean g)).sum ≤ (gs.flatten.map fun x => f (x / (1 + tol))).sum := by
  induction gs with
  | nil => simp
  | cons g gs ih =>
    obtain ⟨⟨a, r, rfl, h1, -⟩, h2⟩ := hg
    obtain ⟨i1, i2⟩ := ih h2 fun x hx => hpos x (by simp only [List.flatten_cons, List.mem_append]; exact Or.inr hx)
    have ha : 0 < a := hpos a (by simp)
    have hmem : ∀ x ∈ a :: r, a ≤ x ∧ x ≤ (1 + tol) * a := by
      intro x hx
      rcases List.mem_cons.mp hx with rfl | hx
      · exact ⟨le_rfl, by nlinarith⟩
      · exact ⟨(h1 x hx).1, (h1 x hx).2.le⟩
    obtain ⟨m1, m2⟩ := mean_bounds (a :: r) (by simp) hmem
    obtain ⟨m, hm⟩ : ∃ m, m = Bore.npMean (a :: r) := ⟨_, rfl⟩
    rw [← hm] at m1 m2
    have key : ∀ l : List ℝ, (∀ x ∈ l, a ≤ x ∧ x ≤ (1 + tol) * a) →
        (l.map fun x => f ((1 + tol) * x)).sum ≤ (l.length : ℝ) * f m ∧ (l.length : ℝ) * f m ≤ (l.map fun x => f (x / (1 + tol))).sum := by
      intro l
      induction l with
      | nil => simp
      | cons x l ihl =>
        intro h
        obtain ⟨k1, k2⟩ := ihl fun y hy => h y (List.mem_cons_of_mem _ hy)
        obtain ⟨x1, x2⟩ := h x List.mem_cons_self
        have hx : 0 < x := ha.trans_le x1
        have b1 : f ((1 + tol) * x) ≤ f m := hf _ _ (ha.trans_le m1) (by nlinarith)
        have b2 : f m ≤ f (x / (1 + tol)) := hf _ _ (by positivity) (by rw [div_le_iff₀ (by positivity)]; nlinarith)
        simp only [List.map_cons, List.sum_cons, List.length_cons]
        push_cast
        constructor <;> linarith
    obtain ⟨k1, k2⟩ := key (a :: r) hmem
    simp only [List.flatten_cons, List.map_append, List.sum_append, List.map_cons (f := fun g : List ℝ => (g.length : ℝ) * f (Bore.npMean g)), List.sum_cons, ← hm]
    simp only [List.map_cons, List.sum_cons] at k1 k2 ⊢
    constructor <;> linarith

/-- **C75**.  The solution for equivalent boreholes with the distances and weights of `unique_distance` is between the exact mean response of the group for all
distances enlarged and for all distances reduced by the relative tolerance, for all fields, groups and times. -/
theorem equivalent_accuracy {alpha : ℝ} (ha : 0 < alpha) {g : Pair} (hg : g.Ok) (h1 : 0 < g.H1) (img : Bool) (hD : img = true → 0 ≤ g.D1 ∧ 0 ≤ g.D2) {t : ℝ} (ht : 0 < t)
    {tol : ℝ} (htol : 0 < tol) (all : List ℝ) (hall : ∀ d ∈ all, 0 < d) (N2 : ℕ) {dis : List ℝ} {wDis : List ℕ} (hu : Bore.UniqueDistance tol all dis wDis) :
    groupResponse t alpha g (all.map fun d => (1 + tol) * d) N2 true img ≤ flsEq t alpha g (List.zipWith (fun d (w : ℕ) => (d, (w : ℝ))) dis wDis) N2 true img ∧
    flsEq t alpha g (List.zipWith (fun d (w : ℕ) => (d, (w : ℝ))) dis wDis) N2 true img ≤ groupResponse t alpha g (all.map fun d => d / (1 + tol)) N2 true img := by
  obtain ⟨dis', w', gs, hu', hperm, -, hgr, rfl, rfl, -⟩ := Bore.unique_distance_groups tol htol all hall
  obtain ⟨rfl, rfl⟩ := Bore.unique_distance_unique tol all hu hu'
  have hzip : List.zipWith (fun d (w : ℕ) => (d, (w : ℝ))) (gs.map Bore.npMean) (gs.map List.length) = gs.map fun g => (Bore.npMean g, (g.length : ℝ)) := by
    rw [List.zipWith_map, List.zipWith_self]
  have hposf : ∀ x ∈ gs.flatten, 0 < x := fun x hx => hall x (hperm.mem_iff.mp hx)
  have hmeanpos : ∀ gs : List (List ℝ), Bore.Grouped tol gs → (∀ x ∈ gs.flatten, 0 < x) → ∀ g ∈ gs, 0 < Bore.npMean g := by
    intro gs
    induction gs with
    | nil => simp
    | cons g gs ih =>
      rintro ⟨⟨a, r, rfl, h1, -⟩, h2⟩ hp g' hg'
      rcases List.mem_cons.mp hg' with rfl | hg'
      · have ha : 0 < a := hp a (by simp)
        have := (mean_bounds (a := a) (m := (1 + tol) * a) (a :: r) (by simp) (by
          intro x hx
          rcases List.mem_cons.mp hx with rfl | hx
          · exact ⟨le_rfl, by nlinarith⟩
          · exact ⟨(h1 x hx).1, (h1 x hx).2.le⟩)).1
        linarith
      · exact ih h2 (fun x hx => hp x (by simp only [List.flatten_cons, List.mem_append]; exact Or.inr hx)) g' hg'
  rw [hzip, equivalent_sum t alpha hg _ (by
    intro x hx
    obtain ⟨g', hg', rfl⟩ := List.mem_map.mp hx
    exact hmeanpos gs hgr hposf g' hg'), List.map_map]
  obtain ⟨b1, b2⟩ := grouped_bounds htol (f := fun d => fls t alpha (g.at d) true img) (fun d e hd hde => decreasing ha hg h1 img hD ht hd hde) gs hgr hposf
  unfold groupResponse
  rw [List.map_map, List.map_map]
  have e1 := (hperm.map fun x => fls t alpha (g.at ((1 + tol) * x)) true img).sum_eq
  have e2 := (hperm.map fun x => fls t alpha (g.at (x / (1 + tol))) true img).sum_eq
  rw [e1] at b1
  rw [e2] at b2
  exact ⟨div_le_div_of_nonneg_right b1 (Nat.cast_nonneg _), div_le_div_of_nonneg_right b2 (Nat.cast_nonneg _)⟩

/-- Non-vacuity: three distances, two of them in one group. -/
example : ∃ dis wDis, Bore.UniqueDistance (1 / 100 : ℝ) [5, 5.01, 7] dis wDis ∧
    flsEq 3600 (1 / 10 ^ 6) samplePair (List.zipWith (fun d (w : ℕ) => (d, (w : ℝ))) dis wDis) 3 true true
      ≤ groupResponse 3600 (1 / 10 ^ 6) samplePair ([5, 5.01, 7].map fun d => d / (1 + 1 / 100)) 3 true true := by
  have hpos : ∀ d ∈ ([5, 5.01, 7] : List ℝ), 0 < d := by intro d hd; fin_cases hd <;> norm_num
  obtain ⟨dis, w, -, hu, -⟩ := Bore.unique_distance_groups (1 / 100 : ℝ) (by norm_num) [5, 5.01, 7] hpos
  exact ⟨dis, w, hu, (equivalent_accuracy (by norm_num) samplePair_ok (by norm_num [samplePair]) true (fun _ => by norm_num [samplePair]) (by norm_num) (by norm_num) _ hpos 3 hu).2⟩

end Verif.FLS
