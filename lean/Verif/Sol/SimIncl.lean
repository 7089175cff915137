import Verif.Sol.SimBugs
import Verif.FLS.FanProps

/-!
# Inclined boreholes in the `Similarities` solver (C83, C84)
-/

noncomputable section

namespace Verif.Sol

open Bore Classical

/-! ### C83: similar pairs of inclined boreholes -/

/-- The quantities compared by the solver are exactly equal. -/
structure SameCompared (p q : Borehole × Borehole) : Prop where
  H1 : p.1.H = q.1.H
  H2 : p.2.H = q.2.H
  D1 : p.1.D = q.1.D
  D2 : p.2.D = q.2.D
  dis : pairDis p = pairDis q
  tilt1 : |p.1.tilt| = |q.1.tilt|
  tilt2 : |p.2.tilt| = |q.2.tilt|
  theta1 : sinCos1 p = sinCos1 q
  theta2 : sinCos2 p = sinCos2 q

/-- Exactly equal quantities pass the comparison. -/
theorem SameCompared.similar {p q : Borehole × Borehole} (h : SameCompared p q) {tol disTol : ℝ} (ht : 0 < tol) (hd : 0 < disTol) : cmpInclined tol disTol p q := by
  unfold cmpInclined condH relDiff
  rw [h.H1, h.H2, h.D1, h.D2, h.dis, h.tilt1, h.tilt2, h.theta1, h.theta2]
  simp [ht, hd]

theorem pair_polar (p : Borehole × Borehole) : p.1.x - p.2.x = pairDis p * Real.cos (pairTheta p) ∧ p.1.y - p.2.y = pairDis p * Real.sin (pairTheta p) := by
  have hn : pairDis p = ‖(⟨p.1.x - p.2.x, p.1.y - p.2.y⟩ : ℂ)‖ := by
    rw [Complex.norm_def, Complex.normSq_mk]
    unfold pairDis
    congr 1; ring
  unfold pairTheta arctan2
  rw [hn, Complex.norm_mul_cos_arg, Complex.norm_mul_sin_arg]
  exact ⟨rfl, rfl⟩

theorem cos_of_abs {a b : ℝ} (h : |a| = |b|) : Real.cos a = Real.cos b := by rw [← Real.cos_abs a, h, Real.cos_abs]

/-- **C83** (partial).  Two pairs that agree in the compared quantities and in the angle between the two boreholes have the same response; the radius of the source does not matter
unless the heads are closer than the radius.  Missing: the comparison does not include the angle between the boreholes, see `inclined_similar_differ`. -/
theorem inclined_similar_partial {p q : Borehole × Borehole} (h : SameCompared p q) (hr : p.1.rb = q.1.rb ∨ (p.1.rb ^ 2 ≤ pairDis p ^ 2 ∧ q.1.rb ^ 2 ≤ pairDis q ^ 2))
    (ha : Real.sin p.1.tilt * Real.sin p.2.tilt * Real.cos (p.1.orientation - p.2.orientation) = Real.sin q.1.tilt * Real.sin q.2.tilt * Real.cos (q.1.orientation - q.2.orientation))
    (t alpha : ℝ) (nodes : List (ℝ × ℝ)) (rea img : Bool) :
    FLS.Incl.fls t alpha p.1 p.2 nodes rea img = FLS.Incl.fls t alpha q.1 q.2 nodes rea img := by
  obtain ⟨px, py⟩ := pair_polar p
  obtain ⟨qx, qy⟩ := pair_polar q
  have c1 := cos_of_abs h.tilt1
  have c2 := cos_of_abs h.tilt2
  have sq : ∀ r : Borehole × Borehole, (r.1.x - r.2.x) ^ 2 + (r.1.y - r.2.y) ^ 2 = pairDis r ^ 2 := by
    intro r
    unfold pairDis
    rw [Real.sq_sqrt (by positivity)]
  have hd2 : FLS.Incl.dx p.1 p.2 ^ 2 + FLS.Incl.dy p.1 p.2 ^ 2 = FLS.Incl.dx q.1 q.2 ^ 2 + FLS.Incl.dy q.1 q.2 ^ 2 := by
    unfold FLS.Incl.dx FLS.Incl.dy
    rw [sq, sq, h.dis]
  have hrr : FLS.Incl.rr p.1 p.2 = FLS.Incl.rr q.1 q.2 := by
    unfold FLS.Incl.rr
    rw [hd2]
    rcases hr with hr | ⟨h1, h2⟩
    · rw [hr]
    · unfold FLS.Incl.dx FLS.Incl.dy
      rw [sq q]
      rw [h.dis] at h1
      rw [max_eq_left h1, max_eq_left h2]
  have s : ∀ r : Borehole × Borehole, Real.sin r.1.tilt * (Real.cos r.1.orientation * FLS.Incl.dx r.1 r.2 + Real.sin r.1.orientation * FLS.Incl.dy r.1 r.2) = sinCos1 r * pairDis r ∧
      Real.sin r.2.tilt * (Real.cos r.2.orientation * FLS.Incl.dx r.1 r.2 + Real.sin r.2.orientation * FLS.Incl.dy r.1 r.2) = sinCos2 r * pairDis r := by
    intro r
    obtain ⟨rx, ry⟩ := pair_polar r
    unfold FLS.Incl.dx FLS.Incl.dy sinCos1 sinCos2
    rw [rx, ry, Real.cos_sub, Real.cos_sub]
    constructor <;> ring
  have s1 : _ = _ := (s p).1.trans ((by rw [h.theta1, h.dis] : _ = _).trans (s q).1.symm)
  have s2 : _ = _ := (s p).2.trans ((by rw [h.theta2, h.dis] : _ = _).trans (s q).2.symm)
  have hz : FLS.Incl.dzRea p.1 p.2 = FLS.Incl.dzRea q.1 q.2 ∧ FLS.Incl.dzImg p.1 p.2 = FLS.Incl.dzImg q.1 q.2 := by
    unfold FLS.Incl.dzRea FLS.Incl.dzImg
    rw [h.D1, h.D2]
    exact ⟨rfl, rfl⟩
  have k0 : FLS.Incl.kRea0 p.1 p.2 = FLS.Incl.kRea0 q.1 q.2 ∧ FLS.Incl.kImg0 p.1 p.2 = FLS.Incl.kImg0 q.1 q.2 := by
    unfold FLS.Incl.kRea0 FLS.Incl.kImg0
    rw [ha, c1, c2]
    exact ⟨rfl, rfl⟩
  have k1 : FLS.Incl.kRea1 p.1 p.2 = FLS.Incl.kRea1 q.1 q.2 ∧ FLS.Incl.kImg1 p.1 p.2 = FLS.Incl.kImg1 q.1 q.2 := by
    unfold FLS.Incl.kRea1 FLS.Incl.kImg1
    rw [s1, c1, hz.1, hz.2]
    exact ⟨rfl, rfl⟩
  have k2 : FLS.Incl.kRea2 p.1 p.2 = FLS.Incl.kRea2 q.1 q.2 ∧ FLS.Incl.kImg2 p.1 p.2 = FLS.Incl.kImg2 q.1 q.2 := by
    unfold FLS.Incl.kRea2 FLS.Incl.kImg2
    rw [s2, c2, hz.1, hz.2]
    exact ⟨rfl, rfl⟩
  have hint : FLS.Incl.integrand p.1 p.2 nodes rea img = FLS.Incl.integrand q.1 q.2 nodes rea img := by
    funext x
    unfold FLS.Incl.integrand
    rw [hrr, hd2, hz.1, hz.2, k0.1, k0.2, k1.1, k1.2, k2.1, k2.2, h.H1, h.H2]
  unfold FLS.Incl.fls
  rw [hint, h.H2]

/-- Three boreholes in a row, all tilted by 15 degrees at right angles to the row, the third one to the other side. -/
def fan3 : Sim :=
  ⟨3, fun k => FLS.Incl.fan 100 4 (3 / 40) (5 * k) (Real.pi / 12) (if k = 2 then -1 else 1), fun _ => 1, fun _ => [1], 1 / 10 ^ 6, 1 / 100⟩

theorem fan_theta {H D rb x y β σ τ : ℝ} (h : x < y) : pairTheta (FLS.Incl.fan H D rb x β σ, FLS.Incl.fan H D rb y β τ) = Real.pi := by
  unfold pairTheta arctan2 FLS.Incl.fan
  rw [Complex.arg_eq_pi_iff]
  simp [h]

theorem fan_sinCos {H D rb x y β σ τ : ℝ} (h : x < y) (hσ : σ = 1 ∨ σ = -1) (hτ : τ = 1 ∨ τ = -1) :
    sinCos1 (FLS.Incl.fan H D rb x β σ, FLS.Incl.fan H D rb y β τ) = 0 ∧ sinCos2 (FLS.Incl.fan H D rb x β σ, FLS.Incl.fan H D rb y β τ) = 0 := by
  unfold sinCos1 sinCos2
  rw [fan_theta h, Real.cos_pi_sub, Real.cos_pi_sub]
  simp [FLS.Incl.fan, FLS.Incl.fan_sin hσ, FLS.Incl.fan_sin hτ]

theorem fan3_similar : SameCompared (fan3.bore 1, fan3.bore 2) (fan3.bore 0, fan3.bore 1) := by
  have h1 := fan_sinCos (H := 100) (D := 4) (rb := 3 / 40) (β := Real.pi / 12) (σ := 1) (τ := -1) (x := 5 * (1 : ℕ)) (y := 5 * (2 : ℕ)) (by norm_num) (.inl rfl) (.inr rfl)
  have h2 := fan_sinCos (H := 100) (D := 4) (rb := 3 / 40) (β := Real.pi / 12) (σ := 1) (τ := 1) (x := 5 * (0 : ℕ)) (y := 5 * (1 : ℕ)) (by norm_num) (.inl rfl) (.inl rfl)
  refine ⟨rfl, rfl, rfl, rfl, ?_, rfl, rfl, ?_, ?_⟩
  · norm_num [pairDis, fan3, FLS.Incl.fan]
  · norm_num [fan3] at h1 h2 ⊢; rw [h1.1, h2.1]
  · norm_num [fan3] at h1 h2 ⊢; rw [h1.2, h2.2]

/-- **C83** is violated: the pairs `(0, 1)` and `(1, 2)` are evaluated together, although boreholes 1 and 2 are tilted to opposite sides and respond less to each other, at any time and for
any quadrature. -/
theorem inclined_similar_differ (t alpha : ℝ) {nodes : List (ℝ × ℝ)} (hne : nodes ≠ []) (hn : ∀ n ∈ nodes, 0 < n.1 ∧ 0 < n.2) :
    (∃ g ∈ fan3.groups.pairI, (0, 1) ∈ g ∧ (1, 2) ∈ g) ∧
    FLS.Incl.fls t alpha (fan3.bore 1) (fan3.bore 2) nodes true true < FLS.Incl.fls t alpha (fan3.bore 0) (fan3.bore 1) nodes true true := by
  have hpi := Real.pi_gt_three
  have hpi' := Real.pi_lt_four
  constructor
  · have v : ∀ k, vertical (fan3.bore k) = false := by
      intro k
      unfold vertical
      rw [Bool.not_eq_false', decide_eq_true_iff]
      unfold tilted fan3 FLS.Incl.fan
      dsimp only
      rw [abs_of_pos (by positivity)]
      norm_num
      linarith
    have hR : fan3.equalRatios := fun k _ => ⟨rfl, Sim.allclose_self (by norm_num) _⟩
    have h3 : fan3.okPair (cmpInclined fan3.tol fan3.disTol) (1, 2) (0, 1) := ⟨fan3_similar.similar (by norm_num [fan3]) (by norm_num [fan3]), .inl hR⟩
    have hdis : ∀ k l : ℕ, pairDis (fan3.bore k, fan3.bore l) = |5 * (k : ℝ) - 5 * l| := by
      intro k l
      unfold pairDis fan3 FLS.Incl.fan
      simp [Real.sqrt_sq_eq_abs]
    have h1 : ¬ fan3.okPair (cmpInclined fan3.tol fan3.disTol) (0, 2) (0, 1) := by
      rintro ⟨⟨-, -, h, -⟩, -⟩
      dsimp only at h
      rw [hdis, hdis] at h
      norm_num [relDiff, fan3] at h
    have h2 : ¬ fan3.okPair (cmpInclined fan3.tol fan3.disTol) (2, 0) (0, 1) := by
      rintro ⟨⟨-, -, h, -⟩, -⟩
      dsimp only at h
      rw [hdis, hdis] at h
      norm_num [relDiff, fan3] at h
    have hp : fan3.pairs = [(0, 1), (0, 2), (1, 2)] := by decide
    refine ⟨[(0, 1), (1, 2)], ?_, by simp, by simp⟩
    unfold Sim.groups
    rw [if_pos (show fan3.N > 1 by norm_num [fan3]), hp]
    simp only [List.foldl_cons, List.foldl_nil, Sim.pairStep, v, Bool.and_self, Bool.false_eq_true, if_false, addPair, List.headD_cons, Prod.swap_prod_mk, h1, h2, h3, if_true,
      List.cons_append, List.nil_append]
    exact List.mem_cons_self
  · have hs : Real.sin (Real.pi / 12) ≠ 0 := (Real.sin_pos_of_pos_of_lt_pi (by positivity) (by linarith)).ne'
    have hc : 0 ≤ Real.cos (Real.pi / 12) := Real.cos_nonneg_of_neg_pi_div_two_le_of_le (by linarith) (by linarith)
    have := FLS.Incl.fan_smaller (H := 100) (D := 4) (rb := 3 / 40) (x := 5 * (0 : ℕ)) (y := 5 * (1 : ℕ)) (x' := 5 * (1 : ℕ)) (y' := 5 * (2 : ℕ)) t alpha (by norm_num) (by norm_num)
      (by norm_num) (by norm_num) (by norm_num) hs hc hne hn
    simpa [fan3] using this

/-- Non-vacuity of `inclined_similar_partial`: moving a pair along a line. -/
example (t alpha : ℝ) (nodes : List (ℝ × ℝ)) :
    FLS.Incl.fls t alpha ⟨100, 4, 3 / 40, 0, 0, 1 / 4, 1⟩ ⟨100, 4, 3 / 40, 5, 0, 1 / 4, 2⟩ nodes true true =
      FLS.Incl.fls t alpha ⟨100, 4, 3 / 40, 7, 3, 1 / 4, 1⟩ ⟨100, 4, 3 / 40, 12, 3, 1 / 4, 2⟩ nodes true true := by
  refine inclined_similar_partial (p := (⟨100, 4, 3 / 40, 0, 0, 1 / 4, 1⟩, ⟨100, 4, 3 / 40, 5, 0, 1 / 4, 2⟩)) (q := (⟨100, 4, 3 / 40, 7, 3, 1 / 4, 1⟩, ⟨100, 4, 3 / 40, 12, 3, 1 / 4, 2⟩))
    ⟨rfl, rfl, rfl, rfl, ?_, rfl, rfl, ?_, ?_⟩ (.inl rfl) rfl t alpha nodes true true
  · norm_num [pairDis]
  · norm_num [sinCos1, pairTheta]
  · norm_num [sinCos2, pairTheta]

/-! ### C84: positions of the response factors of inclined boreholes -/

namespace Sim

variable (S : Sim)

theorem inclined_indices_aux (gs : List (ℕ × ℕ)) (hc : ∀ ij ∈ gs, S.inclinedCount ij = S.inclinedIncrement ij) (pre : List ((ℕ × ℕ) × (ℕ × ℕ))) :
    ∀ x ∈ S.inclinedIndices pre.length gs, ∃ u, (pre ++ S.inclinedGeometries gs)[x.2]? = some (x.1.1, u) ∧
      (u = x.1.2 ∨ cmpInclined S.tol S.disTol (S.seg x.1.1.1 x.1.2.1, S.seg x.1.1.2 x.1.2.2) (S.seg x.1.1.1 u.1, S.seg x.1.1.2 u.2)) := by
  induction gs generalizing pre with
  | nil => intro x hx; simp [inclinedIndices] at hx
  | cons ij gs ih =>
    intro x hx
    rw [inclinedIndices] at hx
    have hg : S.inclinedGeometries (ij :: gs) = ((S.mapAxial (cmpInclined S.tol S.disTol) ij.1 ij.2).1.map fun u => (ij, u)) ++ S.inclinedGeometries gs := by
      simp [inclinedGeometries]
    rw [hg]
    rcases List.mem_append.mp hx with hx | hx
    · obtain ⟨y, hy, rfl⟩ := List.mem_map.mp hx
      obtain ⟨u, hu, hcmp⟩ := (S.mapAxial_spec (cmpInclined S.tol S.disTol) ij.1 ij.2).2.1 y hy
      refine ⟨u, ?_, hcmp⟩
      dsimp only
      have hlt := (List.getElem?_eq_some_iff.mp hu).1
      rw [List.getElem?_append_right (by omega), show y.2 + pre.length - pre.length = y.2 by omega, List.getElem?_append_left (by simpa using hlt), List.getElem?_map, hu]
      rfl
    · have h := hc ij List.mem_cons_self
      have := ih (fun a ha => hc a (List.mem_cons_of_mem _ ha)) (pre ++ (S.mapAxial (cmpInclined S.tol S.disTol) ij.1 ij.2).1.map fun u => (ij, u)) x
        (by rw [List.length_append, List.length_map]; unfold inclinedCount at h; rw [h]; exact hx)
      rwa [List.append_assoc] at this

theorem inclined_indices_cover (gs : List (ℕ × ℕ)) (k0 : ℕ) {ij : ℕ × ℕ} (hij : ij ∈ gs) {p : ℕ × ℕ} (hp : p ∈ S.segPairs ij.1 ij.2) : ∃ k, ((ij, p), k) ∈ S.inclinedIndices k0 gs := by
  induction gs generalizing k0 with
  | nil => simp at hij
  | cons g gs ih =>
    rw [inclinedIndices]
    rcases List.mem_cons.mp hij with rfl | h
    · obtain ⟨k, hk⟩ := exists_mem_zip (S.mapAxial_spec (cmpInclined S.tol S.disTol) ij.1 ij.2).1 hp
      exact ⟨k + k0, List.mem_append_left _ (List.mem_map.mpr ⟨_, hk, rfl⟩)⟩
    · obtain ⟨k, hk⟩ := ih (k0 + S.inclinedIncrement g) h
      exact ⟨k, List.mem_append_right _ hk⟩

theorem axial_distinct (cmp : Borehole × Borehole → Borehole × Borehole → Prop) (i j : ℕ) (qs us : List (ℕ × ℕ)) (ks : List ℕ) (hl : us.length = ks.length)
    (hd : ∀ p ∈ qs, ∀ u ∈ us, ¬ cmp (S.seg i p.1, S.seg j p.2) (S.seg i u.1, S.seg j u.2))
    (hq : qs.Pairwise fun u p => ¬ cmp (S.seg i p.1, S.seg j p.2) (S.seg i u.1, S.seg j u.2)) :
    (qs.foldl (S.axialStep cmp i j) (us, ks)).1.length = (qs.foldl (S.axialStep cmp i j) (us, ks)).2.length := by
  induction qs generalizing us ks with
  | nil => simpa using hl
  | cons q qs ih =>
    rw [List.foldl_cons]
    have hn : us.findIdx? (fun u => decide (cmp (S.seg i q.1, S.seg j q.2) (S.seg i u.1, S.seg j u.2))) = none := by
      rw [List.findIdx?_eq_none_iff]
      intro u hu
      simpa using hd q List.mem_cons_self u hu
    have e : S.axialStep cmp i j (us, ks) q = (us ++ [q], ks ++ [us.length]) := by simp only [axialStep, hn]
    rw [e]
    rw [List.pairwise_cons] at hq
    refine ih _ _ (by simp [hl]) (fun p hp u hu => ?_) hq.2
    rcases List.mem_append.mp hu with hu | hu
    · exact hd p (List.mem_cons_of_mem _ hp) u hu
    · rw [List.mem_singleton.mp hu]; exact hq.1 p hp

theorem nodup_segPairs (i j : ℕ) : (S.segPairs i j).Nodup := by
  unfold segPairs
  rw [List.nodup_flatMap]
  refine ⟨fun a _ => List.nodup_range.map fun _ _ h => (Prod.mk.inj h).2, ?_⟩
  refine List.nodup_range.imp fun {a b} hab => ?_
  intro x hx hy
  obtain ⟨_, -, rfl⟩ := List.mem_map.mp hx
  obtain ⟨_, -, h⟩ := List.mem_map.mp hy
  exact hab (Prod.mk.inj h).1.symm

/-- **C84** (partial).  If no two different pairs of segments of the first pair of boreholes of a group are similar, every pair of segments of that group is mapped to the response factor of that very
pair of segments.  Missing: groups with similar pairs of segments, see `inclined_index_out_of_range`. -/
theorem inclined_indices_partial (gs : List (ℕ × ℕ))
    (h : ∀ ij ∈ gs, ∀ p ∈ S.segPairs ij.1 ij.2, ∀ u ∈ S.segPairs ij.1 ij.2, p ≠ u →
      ¬ cmpInclined S.tol S.disTol (S.seg ij.1 p.1, S.seg ij.2 p.2) (S.seg ij.1 u.1, S.seg ij.2 u.2)) :
    (∀ x ∈ S.inclinedIndices 0 gs, (S.inclinedGeometries gs)[x.2]? = some x.1) ∧
    ∀ ij ∈ gs, ∀ p ∈ S.segPairs ij.1 ij.2, ∃ k, ((ij, p), k) ∈ S.inclinedIndices 0 gs := by
  refine ⟨fun x hx => ?_, fun ij hij p hp => S.inclined_indices_cover gs 0 hij hp⟩
  have hc : ∀ ij ∈ gs, S.inclinedCount ij = S.inclinedIncrement ij := by
    intro ij hij
    refine S.axial_distinct _ _ _ _ _ _ rfl (by simp) ?_
    refine (S.nodup_segPairs ij.1 ij.2).imp_of_mem ?_
    intro a b ha hb hab
    exact h ij hij b hb a ha (Ne.symm hab)
  obtain ⟨u, hu, hcmp⟩ := S.inclined_indices_aux gs hc [] x hx
  rw [List.nil_append] at hu
  rw [hu]
  have hmem : ∀ gs k0, ∀ x ∈ S.inclinedIndices k0 gs, x.1.1 ∈ gs ∧ x.1.2 ∈ S.segPairs x.1.1.1 x.1.1.2 := by
    intro gs
    induction gs with
    | nil => intro k0 x hx; simp [inclinedIndices] at hx
    | cons g gs ih =>
      intro k0 x hx
      rw [inclinedIndices] at hx
      rcases List.mem_append.mp hx with hx | hx
      · obtain ⟨y, hy, rfl⟩ := List.mem_map.mp hx
        exact ⟨List.mem_cons_self, (List.of_mem_zip hy).1⟩
      · obtain ⟨h1, h2⟩ := ih _ x hx
        exact ⟨List.mem_cons_of_mem _ h1, h2⟩
  obtain ⟨m1, m2⟩ := hmem gs 0 x hx
  have hu' : u ∈ S.segPairs x.1.1.1 x.1.1.2 := by
    have := List.mem_of_getElem? hu
    obtain ⟨ij, -, hm⟩ := List.mem_flatMap.mp this
    obtain ⟨w, hw, e⟩ := List.mem_map.mp hm
    obtain ⟨rfl, rfl⟩ := Prod.mk.inj e
    exact (S.mapAxial_spec (cmpInclined S.tol S.disTol) x.1.1.1 x.1.1.2).2.2.1 w hw
  have : u = x.1.2 := by
    rcases hcmp with e | hcmp
    · exact e
    · by_contra hne
      exact h _ m1 _ m2 _ hu' (Ne.symm hne) hcmp
  rw [this]

/-- Two horizontal boreholes of 100 m and 60 m in two segments. -/
def flat2 : Sim := ⟨2, fun k => ⟨if k = 0 then 100 else 60, 4, 3 / 40, 0, 10 * k, Real.pi / 2, 0⟩, fun _ => 2, fun _ => uniformRatios 2, 1 / 10 ^ 6, 1 / 100⟩

theorem tilted_right : tilted (Real.pi / 2) := by
  have := Real.pi_gt_three
  unfold tilted
  rw [abs_of_pos (by positivity)]
  norm_num
  linarith

theorem flat2_seg (k : ℕ) {a : ℕ} (ha : a < 2) :
    flat2.seg k a = ⟨(if k = 0 then 50 else 30), 4, 3 / 40, a * (if k = 0 then 50 else 30), 10 * k, Real.pi / 2, 0⟩ := by
  have h : ((flat2.bore k).segments (flat2.rs k))[a]? = some ((flat2.bore k).segmentAt ((0 + a * (1 / ((2 : ℕ) : ℝ))) * (flat2.bore k).H) (1 / ((2 : ℕ) : ℝ))) := by
    rw [segments_eq]
    exact segsFrom_replicate _ _ _ _ ha
  unfold seg
  rw [List.getD_eq_getElem?_getD, h]
  simp only [Option.getD_some, Borehole.segmentAt, Borehole.new, flat2, Real.cos_pi_div_two, Real.sin_pi_div_two, Real.cos_zero, Real.sin_zero]
  rw [Borehole.mk.injEq]
  refine ⟨?_, ?_, rfl, ?_, ?_, rfl, ite_self _⟩
  · split_ifs <;> norm_num
  · ring
  · split_ifs <;> (push_cast; ring)
  · ring

theorem flat2_map (k : ℕ) : flat2.mapAxial (cmpInclined flat2.tol flat2.disTol) k k = ([(0, 0), (0, 1), (1, 0)], [0, 1, 2, 0]) := by
  obtain ⟨L, hL, hLpos⟩ : ∃ L : ℝ, L = (if k = 0 then 50 else 30) ∧ 1 < L := ⟨_, rfl, by split_ifs <;> norm_num⟩
  have s0 := flat2_seg k (a := 0) (by norm_num)
  have s1 := flat2_seg k (a := 1) (by norm_num)
  rw [← hL] at s0 s1
  push_cast at s0 s1
  rw [zero_mul] at s0
  rw [one_mul] at s1
  have p01 : pairDis (flat2.seg k 0, flat2.seg k 1) = L := by rw [s0, s1]; simp [pairDis, Real.sqrt_sq (show 0 ≤ L by linarith)]
  have p10 : pairDis (flat2.seg k 1, flat2.seg k 0) = L := by rw [s0, s1]; simp [pairDis, Real.sqrt_sq (show 0 ≤ L by linarith)]
  have p00 : pairDis (flat2.seg k 0, flat2.seg k 0) = 0 := by simp [pairDis]
  have t01 : sinCos1 (flat2.seg k 0, flat2.seg k 1) = -1 := by
    have : pairTheta (flat2.seg k 0, flat2.seg k 1) = Real.pi := by
      unfold pairTheta arctan2
      rw [Complex.arg_eq_pi_iff, s0, s1]
      simp; linarith
    unfold sinCos1
    rw [this, s0]
    simp
  have t10 : sinCos1 (flat2.seg k 1, flat2.seg k 0) = 1 := by
    have : pairTheta (flat2.seg k 1, flat2.seg k 0) = 0 := by
      unfold pairTheta arctan2
      rw [Complex.arg_eq_zero_iff, s0, s1]
      simp; linarith
    unfold sinCos1
    rw [this, s1]
    simp
  have hd : ∀ q, pairDis q = 0 → ∀ p, pairDis p = L → ¬ cmpInclined flat2.tol flat2.disTol p q := by
    rintro q hq p hp ⟨-, -, h, -⟩
    rw [hp, hq] at h
    unfold relDiff at h
    rw [div_lt_iff₀ (by positivity), sub_zero, abs_of_pos (by linarith)] at h
    norm_num [flat2] at h
    linarith
  have c1 := hd _ p00 _ p01
  have c2 := hd _ p00 _ p10
  have c3 : ¬ cmpInclined flat2.tol flat2.disTol (flat2.seg k 1, flat2.seg k 0) (flat2.seg k 0, flat2.seg k 1) := by
    rintro ⟨-, -, -, -, h, -⟩
    rw [t01, t10] at h
    norm_num [relDiff, flat2] at h
  have c4 : cmpInclined flat2.tol flat2.disTol (flat2.seg k 1, flat2.seg k 1) (flat2.seg k 0, flat2.seg k 0) := by
    refine SameCompared.similar ⟨?_, ?_, ?_, ?_, ?_, ?_, ?_, ?_, ?_⟩ (by norm_num [flat2]) (by norm_num [flat2]) <;>
      simp [s0, s1, pairDis, sinCos1, sinCos2, pairTheta]
  have hp : flat2.segPairs k k = [(0, 0), (0, 1), (1, 0), (1, 1)] := rfl
  unfold mapAxial
  rw [hp]
  simp only [List.foldl_cons, List.foldl_nil, axialStep, List.findIdx?_nil, List.nil_append, List.findIdx?_cons, c1, c2, c3, c4, decide_true, decide_false, Bool.false_eq_true, if_false,
    if_true, Option.map_none, List.cons_append, List.length_cons, List.length_nil, Nat.zero_add]

/-- **C84** is violated: for two horizontal boreholes of different lengths, the offset of the second group counts all pairs of segments of the first one and not the unique ones; one of
the positions is beyond the last of the response factors, the solver raises an `IndexError`; others read the factor of another pair. -/
theorem inclined_index_out_of_range :
    flat2.groups.selfI = [[0], [1]] ∧
    (((1, 1), (1, 0)), 6) ∈ flat2.inclinedIndices 0 [(0, 0), (1, 1)] ∧ (flat2.inclinedGeometries [(0, 0), (1, 1)])[6]? = none ∧
    (((1, 1), (0, 0)), 4) ∈ flat2.inclinedIndices 0 [(0, 0), (1, 1)] ∧ (flat2.inclinedGeometries [(0, 0), (1, 1)])[4]? = some ((1, 1), (0, 1)) := by
  refine ⟨?_, ?_, ?_, ?_, ?_⟩
  · have v : ∀ k, vertical (flat2.bore k) = false := by
      intro k
      unfold vertical
      rw [Bool.not_eq_false', decide_eq_true_iff]
      exact tilted_right
    have h1 : ¬ flat2.okSelf 1 0 := by
      rintro ⟨⟨h, -⟩, -⟩
      norm_num [flat2] at h
    have hr : List.range flat2.N = [0, 1] := rfl
    unfold groups
    rw [if_pos (show flat2.N > 1 by norm_num [flat2]), hr]
    simp only [List.foldl_cons, List.foldl_nil, selfStep, v, Bool.false_eq_true, if_false, addSelf, List.headD_cons, h1]
  all_goals
    have hp : ∀ k, flat2.segPairs k k = [(0, 0), (0, 1), (1, 0), (1, 1)] := fun _ => rfl
    simp [inclinedIndices, inclinedGeometries, inclinedIncrement, flat2_map, hp]

/-- Non-vacuity of `inclined_indices_partial`: the inclined boreholes of `fan3` in two segments each, all groups. -/
example : ∀ x ∈ ({ fan3 with ns := fun _ => 2, rs := fun _ => uniformRatios 2 } : Sim).inclinedIndices 0 [(0, 0), (0, 1), (0, 2)],
    (({ fan3 with ns := fun _ => 2, rs := fun _ => uniformRatios 2 } : Sim).inclinedGeometries [(0, 0), (0, 1), (0, 2)])[x.2]? = some x.1 := by
  obtain ⟨S, hS⟩ : ∃ S : Sim, S = { fan3 with ns := fun _ => 2, rs := fun _ => uniformRatios 2 } := ⟨_, rfl⟩
  rw [← hS]
  refine (S.inclined_indices_partial _ fun ij _ p hp u hu hne => ?_).1
  rw [mem_segPairs] at hp hu
  have hn : ∀ k, S.ns k = 2 := fun k => by rw [hS]
  rw [hn, hn] at hp hu
  have hc : 1 / 2 ≤ Real.cos (Real.pi / 12) := by
    rw [← Real.cos_pi_div_three]
    have := Real.pi_pos
    exact Real.cos_le_cos_of_nonneg_of_le_pi (by positivity) (by linarith) (by linarith)
  have hD : ∀ k a : ℕ, a < 2 → (S.seg k a).D = 4 + a * 50 * Real.cos (Real.pi / 12) := by
    intro k a ha
    rw [(S.seg_uniform_tilted (k := k) (n := 2) (by rw [hS]) ha).2, hS]
    norm_num [fan3, FLS.Incl.fan]
  have hsep : ∀ k a b : ℕ, a < 2 → b < 2 → a ≠ b → ¬ relDiff (S.seg k a).D (S.seg k b).D < S.tol := by
    intro k a b ha hb hab h
    rw [hD k a ha, hD k b hb, show S.tol = 1 / 10 ^ 6 by rw [hS]; rfl] at h
    have hcos := Real.cos_le_one (Real.pi / 12)
    unfold relDiff at h
    rw [div_lt_iff₀ (by positivity)] at h
    have : a = 0 ∧ b = 1 ∨ a = 1 ∧ b = 0 := by omega
    rcases this with ⟨rfl, rfl⟩ | ⟨rfl, rfl⟩
    · rw [abs_lt] at h
      push_cast at h
      rw [abs_of_pos (by linarith)] at h
      norm_num at h
      linarith [h.1]
    · rw [abs_lt] at h
      push_cast at h
      rw [abs_of_pos (a := 4 + 1 * 50 * Real.cos (Real.pi / 12)) (by linarith)] at h
      norm_num at h
      linarith [h.2]
  rintro ⟨-, ⟨h1, h2⟩, -⟩
  have : p.1 ≠ u.1 ∨ p.2 ≠ u.2 := by
    by_contra hcon
    push Not at hcon
    exact hne (Prod.ext hcon.1 hcon.2)
  rcases this with h | h
  · exact hsep _ _ _ hp.1 hu.1 h h1
  · exact hsep _ _ _ hp.2 hu.2 h h2

end Sim

end Verif.Sol
