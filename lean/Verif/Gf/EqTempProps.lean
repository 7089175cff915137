import Verif.Gf.CongruentProps

/-!
# Uniform temperature and mixed inlet temperature: `equivalent` against `detailed`
-/

noncomputable section

namespace Verif.Gf

open Bore FLS Sol Finset EqIn

/-- Grouping keeps the response factors positive definite. -/
theorem definite_grouped {n m : ℕ} {π : Fin n → Fin m} (hsurj : ∀ c, ∃ i, π i = c) {F : Fin n → Fin n → ℝ → ℝ} {F' : Fin m → Fin m → ℝ → ℝ} {tl : List ℝ} (hG : Grouped π F F' tl)
    {H : Fin n → ℝ} {H' : Fin m → ℝ} (hH : ∀ c, ∑ k with π k = c, H k = H' c) {t : ℝ} (ht : t ∈ tl) (hd : Definite H fun i j => F i j t) : Definite H' fun i j => F' i j t := by
  intro q hq
  have h1 := hd (fun i => q (π i)) fun h0 => hq (funext fun c => by
    obtain ⟨i, rfl⟩ := hsurj c
    exact congrFun h0 i)
  have e1 : ∀ i, ∑ j, F i j t * q (π j) = ∑ c, F' (π i) c t * q c := fun i => by
    rw [sum_lift π (fun j => F i j t)]
    exact Finset.sum_congr rfl fun c _ => by rw [hG i c t ht]
  have e2 : ∑ i, H i * q (π i) * ∑ j, F i j t * q (π j) = ∑ c, H' c * q c * ∑ d, F' c d t * q d := by
    have := sum_lift π H fun c => q c * ∑ d, F' c d t * q d
    simp only [e1]
    simp only [mul_assoc] at this ⊢
    rw [this]
    simp only [hH]
  rw [e2] at h1
  exact h1

/-- The group of a borehole. -/
def label (E : EqIn) (k : ℕ) : ℕ := E.clusters.1.getD k 0

theorem zip_filter (l : List ℕ) (f : ℕ → ℕ) (i : ℕ) : ((List.zip l (l.map f)).filter fun x => x.2 = i).map (fun x => x.1) = l.filter fun k => f k = i := by
  induction l with
  | nil => rfl
  | cons k l ih =>
    simp only [List.map_cons, List.zip_cons_cons, List.filter_cons]
    by_cases h : f k = i
    · simp only [h, decide_true, if_true, List.map_cons, ih]
    · simp only [h, decide_false, Bool.false_eq_true, if_false, ih]

theorem filter_sum (N : ℕ) (f : ℕ → ℕ) (i : ℕ) (φ : ℕ → ℝ) : ∑ k ∈ range N with f k = i, φ k = (((List.range N).filter fun k => f k = i).map φ).sum := by
  rw [Finset.sum_filter]
  induction N with
  | zero => simp
  | succ N ih =>
    rw [Finset.sum_range_succ, ih, List.range_succ, List.filter_append, List.map_append, List.sum_append]
    by_cases h : f N = i <;> simp [h]

theorem cluster_filter (E : EqIn) (hc : CutOk E.cut) (i : ℕ) : E.cluster i = (List.range E.N).filter fun k => label E k = i := by
  have h := (E.clusters_spec hc).1
  have e : E.clusters.1 = (List.range E.N).map (label E) := by
    rw [← h]
    exact (map_range_eq E.clusters.1 0).symm
  unfold cluster
  rw [e]
  exact zip_filter _ _ i

theorem cluster_sum (E : EqIn) (hc : CutOk E.cut) (i : ℕ) (φ : ℕ → ℝ) : ∑ k ∈ range E.N with label E k = i, φ k = ((E.cluster i).map φ).sum := by
  rw [cluster_filter E hc, filter_sum]

theorem mem_cluster (E : EqIn) (hc : CutOk E.cut) {i k : ℕ} : k ∈ E.cluster i ↔ k < E.N ∧ label E k = i := by
  rw [cluster_filter E hc]
  simp

theorem label_lt (E : EqIn) (hc : CutOk E.cut) {k : ℕ} (hk : k < E.N) : label E k < E.clusters.2 := by
  obtain ⟨h1, h2, -⟩ := E.clusters_spec hc
  unfold label
  rw [List.getD_eq_getElem _ _ (h1 ▸ hk)]
  exact h2 _ (List.getElem_mem _)

theorem label_surj (E : EqIn) (hc : CutOk E.cut) {i : ℕ} (hi : i < E.clusters.2) : ∃ k < E.N, label E k = i := by
  obtain ⟨h1, -, h3⟩ := E.clusters_spec hc
  obtain ⟨k, hk, e⟩ := List.mem_iff_getElem.mp (h3 i hi)
  exact ⟨k, h1 ▸ hk, by unfold label; rw [List.getD_eq_getElem _ _ hk, e]⟩

/-- The groups are balanced: all boreholes of a group have the same distances to the boreholes of every group, in some order. -/
def Balanced (E : EqIn) : Prop := ∀ i < E.clusters.2, ∀ j < E.clusters.2, ∀ k ∈ E.cluster j, ∀ l ∈ E.cluster j,
  ((E.cluster i).map fun m => (E.bore m).distance (E.bore k)).Perm ((E.cluster i).map fun m => (E.bore m).distance (E.bore l))

variable {E : EqIn} {H D rb alpha : ℝ} {n : ℕ}

theorem identical_fit {S : Sim} (hU : S.Identical H D rb n) : Fit S rb := by
  obtain ⟨r1, r2, r3⟩ := uniformRatios_ok hU.pos.2.2.2
  exact ⟨hU.size, hU.tilt_eq, ⟨hU.pos.2.2.1, hU.rb_eq⟩, fun k hk => by rw [hU.H_eq k hk]; exact hU.pos.1, fun k hk => by rw [hU.D_eq k hk]; exact hU.pos.2.1,
    fun k hk => by rw [hU.rs_eq k hk, hU.ns_eq k hk, r3], fun k hk => by rw [hU.rs_eq k hk]; exact r1, fun k hk => by rw [hU.rs_eq k hk, r2]⟩

/-- In a field of identical boreholes the response of two segments depends on the distance of the boreholes only. -/
theorem identical_pair (hU : (E.field n).Identical H D rb n) {k l a b : ℕ} (hk : k < E.N) (hl : l < E.N) (ha : a < n) (hb : b < n) :
    pairOf ((E.field n).seg k a) ((E.field n).seg l b) = ⟨(E.bore k).distance (E.bore l), H / n, D + a * (H / n), H / n, D + b * (H / n)⟩ := by
  have hFE := Sim.Identical.same _ hU
  have hs1 := (E.field n).seg_uniform (k := k) (n := n) rfl (hU.tilt_eq k hk) ha
  have hs2 := (E.field n).seg_uniform (k := l) (n := n) rfl (hU.tilt_eq l hl) hb
  have hd := (E.field n).seg_distance (k := k) (l := l) (a := a) (b := b) (hU.tilt_eq k hk) (hU.tilt_eq l hl) (by rw [hFE.ratios k hk]; exact ha) (by rw [hFE.ratios l hl]; exact hb)
  rw [hU.H_eq k hk, hU.D_eq k hk] at hs1
  rw [hU.H_eq l hl, hU.D_eq l hl] at hs2
  unfold pairOf
  rw [hd, hs1.1, hs1.2, hs2.1, hs2.2]
  rfl

theorem balanced_sum (hc : CutOk E.cut) (hB : Balanced E) (hU : (E.field n).Identical H D rb n) (t : ℝ) {i j k l a b : ℕ} (hi : i < E.clusters.2) (hj : j < E.clusters.2)
    (hk : k ∈ E.cluster j) (hl : l ∈ E.cluster j) (ha : a < n) (hb : b < n) :
    ((E.cluster i).map fun m => fls t alpha (pairOf ((E.field n).seg m a) ((E.field n).seg k b)) true true).sum =
      ((E.cluster i).map fun m => fls t alpha (pairOf ((E.field n).seg m a) ((E.field n).seg l b)) true true).sum := by
  have hm : ∀ x < E.N, ((E.cluster i).map fun m => fls t alpha (pairOf ((E.field n).seg m a) ((E.field n).seg x b)) true true) =
      ((E.cluster i).map fun m => (E.bore m).distance (E.bore x)).map fun d => fls t alpha ⟨d, H / n, D + a * (H / n), H / n, D + b * (H / n)⟩ true true := fun x hx => by
    rw [List.map_map]
    refine List.map_congr_left fun m hm => ?_
    rw [identical_pair hU (E.cluster_lt hc i hi m hm) hx ha hb]
    rfl
  rw [hm k (E.cluster_lt hc j hj k hk), hm l (E.cluster_lt hc j hj l hl)]
  exact ((hB i hi j hj k hk l hl).map _).sum_eq

theorem solver_first (E : EqIn) (es : List EqBore) (dis : List ℝ) (n : ℕ) (rs : List ℝ) (k : ℕ) : (E.solver es dis n rs).sim.first k = n * k := by
  simp only [Sim.first, EqSol.sim, solver]
  rw [List.map_const', List.sum_replicate, List.length_range, smul_eq_mul, Nat.mul_comm]

theorem field_first (E : EqIn) (n k : ℕ) : (E.field n).first k = n * k := by
  simp only [Sim.first, field]
  rw [List.map_const', List.sum_replicate, List.length_range, smul_eq_mul, Nat.mul_comm]

/-- The response factors of the `equivalent` solver for balanced groups: the response of a group at any borehole of the other. -/
theorem balanced_factors (hc : CutOk E.cut) (hB : Balanced E) (hU : (E.field n).UniformField H D rb n) (hA : E.Apart rb) {dis : List ℝ} {wDis : List ℕ}
    (hu : UniqueDistance E.disTol E.allDistances dis wDis) {es : List EqBore} (hes : E.equivalents = some es) (t : ℝ) :
    ∃ M, (E.solver es dis n (uniformRatios n)).factors (EqSol.flsE t alpha) (fun g => fls t alpha g true true) = some M ∧
      ∀ i < E.clusters.2, ∀ l < E.N, ∀ a < n, ∀ b < n, M (b + n * label E l) (a + n * i) =
        ((E.cluster i).map fun m => fls t alpha (pairOf ((E.field n).seg m a) ((E.field n).seg l b)) true true).sum := by
  obtain ⟨es', hes', hlen, hget⟩ := E.uniform_equivalents hc hU.toIdentical
  obtain rfl := Option.some.inj (hes.symm.trans hes')
  obtain ⟨M, hM, h⟩ := (E.solver es dis n (uniformRatios n)).equivalent_exact (E.uniform_exact hc hU hA hu hes) t alpha
  obtain ⟨M', hM', h2⟩ := (E.field n).detailed_entries t alpha (Sim.Identical.valid _ hU.toIdentical) (Sim.Identical.same _ hU.toIdentical)
    (K := fun _ s r => fls t alpha (pairOf s r) true true) (fun _ _ => rfl)
  refine ⟨M, hM, fun i hi l hl a ha b hb => ?_⟩
  have hj := label_lt E hc hl
  have hlc : l ∈ E.cluster (label E l) := (mem_cluster E hc).mpr ⟨hl, rfl⟩
  have h3 := h i (by show i < es.length; omega) (label E l) (by show label E l < es.length; omega) a ha b hb
  rw [solver_first, solver_first] at h3
  rw [h3]
  refine (E.clusterMean_detailed t alpha hc hU.toIdentical dis hes h2 hi hj ha hb).trans ?_
  have e1 : ((E.cluster (label E l)).map fun l' => ((E.cluster i).map fun k => M' (b + n * l') (a + n * k)).sum) =
      (E.cluster (label E l)).map fun _ => ((E.cluster i).map fun m => fls t alpha (pairOf ((E.field n).seg m a) ((E.field n).seg l b)) true true).sum := by
    refine List.map_congr_left fun l' hl' => ?_
    rw [← balanced_sum hc hB hU.toIdentical t hi hj hl' hlc ha hb]
    congr 1
    refine List.map_congr_left fun k hk => ?_
    have := h2 k (E.cluster_lt hc i hi k hk) l' (E.cluster_lt hc _ hj l' hl') a ha b hb
    rwa [field_first, field_first] at this
  have h0 : ((E.cluster (label E l)).length : ℝ) ≠ 0 := by exact_mod_cast (List.length_pos_of_mem hlc).ne'
  rw [e1, List.map_const', List.sum_replicate, nsmul_eq_mul]
  field_simp

/-- The groups of a network that passively exchanges heat do so too, each group weighted by its number of sources. -/
theorem passive_grouped {n m : ℕ} {π : Fin n → Fin m} (hsurj : ∀ c, ∃ i, π i = c) {f : Flow n} {f' : Flow m} (hf : GroupedFlow π f f') (hp : Passive f fun _ => 1) :
    Passive f' fun c => ((Finset.univ.filter fun k => π k = c).card : ℝ) := by
  have e1 : ∀ i (θ : Fin m → ℝ), ∑ k, f.aB i k * θ (π k) = ∑ c, f'.aB (π i) c * θ c := fun i θ => by
    rw [sum_lift π (fun k => f.aB i k)]
    simp only [hf.aB]
  refine ⟨fun c => ?_, fun θ => ?_, ?_⟩
  · obtain ⟨i, rfl⟩ := hsurj c
    have h := e1 i fun _ => 1
    simp only [mul_one] at h
    rw [← hf.aIn, ← h]
    exact hp.equilibrium i
  · refine (hp.dissipative fun i => θ (π i)).trans_eq ?_
    simp only [e1, one_mul]
    rw [Finset.sum_congr rfl fun i _ => (one_mul (θ (π i) * ∑ c, f'.aB (π i) c * θ c)).symm, sum_lift π (fun _ => 1) fun c => θ c * ∑ d, f'.aB c d * θ d]
    refine Finset.sum_congr rfl fun c _ => ?_
    rw [Finset.sum_const, nsmul_eq_mul, mul_one, mul_assoc]
  · obtain ⟨i, hi⟩ := hp.active
    exact ⟨π i, by rwa [← hf.aIn]⟩

theorem flat_get (N n : ℕ) (φ : ℕ → ℕ → ℝ) {i a : ℕ} (hi : i < N) (ha : a < n) : ((List.range N).flatMap fun i => (List.range n).map fun a => φ i a).getD (a + n * i) 0 = φ i a := by
  have hl : ∀ M, ((List.range M).flatMap fun i => (List.range n).map fun a => φ i a).length = n * M := fun M => by
    induction M with
    | zero => simp
    | succ M ih => rw [List.range_succ, List.flatMap_append, List.length_append, ih]; simp; ring
  induction N with
  | zero => omega
  | succ N ih =>
    rw [List.range_succ, List.flatMap_append]
    by_cases h : i < N
    · have : n * (i + 1) ≤ n * N := Nat.mul_le_mul_left n h
      rw [List.getD_append _ _ _ _ (by rw [hl]; linarith [Nat.mul_succ n i])]
      exact ih h
    · obtain rfl : i = N := by omega
      rw [List.getD_append_right _ _ _ _ (by rw [hl]; omega), hl, Nat.add_sub_cancel]
      simp [List.getD_eq_getElem?_getD, List.getElem?_range ha]

/-- Identical boreholes in parallel, of `n` segments each: every borehole has the coefficients `ain` and `B`, and no borehole has an effect on the fluid in another. -/
structure ParallelFlow (n : ℕ) (ain : ℕ → ℝ) (B : ℕ → ℕ → ℝ) (len : ℝ) {N : ℕ} (f : Flow N) : Prop where
  aIn : ∀ k, ∀ a < n, ∀ h, f.aIn ⟨a + n * k, h⟩ = ain a
  aB : ∀ k l, ∀ a < n, ∀ b < n, ∀ h h', f.aB ⟨a + n * k, h⟩ ⟨b + n * l, h'⟩ = if k = l then B a b else 0
  Hb : ∀ i, f.Hb i = len

/-- The segments of the `equivalent` solver are the groups of the segments of the field. -/
theorem balanced_grouped (hc : CutOk E.cut) (hB : Balanced E) (hU : (E.field n).UniformField H D rb n) (hA : E.Apart rb) {dis : List ℝ} {wDis : List ℕ}
    (hu : UniqueDistance E.disTol E.allDistances dis wDis) {es : List EqBore} (hes : E.equivalents = some es) (alpha : ℝ)
    {π : Fin (segmentList (bores (E.field n)) (counts (E.field n)) (ratios (E.field n))).length → Fin (n * es.length)}
    (hπ : SegMap (E.field n) (E.solver es dis n (uniformRatios n)).sim (label E) π) (tl : List ℝ) :
    Grouped π (segmentResponse alpha (bores (E.field n)) (counts (E.field n)) (ratios (E.field n)))
      (fun i j t => (((E.solver es dis n (uniformRatios n)).factors (EqSol.flsE t alpha) fun p => fls t alpha p true true).getD fun _ _ => 0) i j) tl ∧
    (∀ c, ∑ k with π k = c, segmentLengths (bores (E.field n)) (counts (E.field n)) (ratios (E.field n)) k = (lengthsEq (E.solver es dis n (uniformRatios n))).getD c 0) ∧
    (∀ c, ∃ i, π i = c) ∧ ∀ t, ((E.solver es dis n (uniformRatios n)).factors (EqSol.flsE t alpha) fun p => fls t alpha p true true).isSome := by
  obtain ⟨es', hes', hlen, hget⟩ := E.uniform_equivalents hc hU.toIdentical
  obtain rfl := Option.some.inj (hes.symm.trans hes')
  have hf := identical_fit hU.toIdentical
  have hn := segments_count _ hf.len
  obtain ⟨V, hV⟩ : ∃ V, V = E.solver es dis n (uniformRatios n) := ⟨_, rfl⟩
  have hf1 : ∀ k, V.sim.first k = n * k := fun k => by rw [hV]; exact solver_first E es dis n _ k
  have hns : ∀ k < (E.field n).N, V.sim.ns (label E k) = (E.field n).ns k := fun k _ => by rw [hV]; rfl
  have hcoord : ∀ c : Fin (n * es.length), ∃ d < E.clusters.2, ∃ b < n, c.val = b + n * d := fun c => by
    have hc' := c.isLt
    have hn0 : 0 < n := hU.pos.2.2.2
    exact ⟨c.val / n, by rw [← hlen]; exact Nat.div_lt_of_lt_mul hc', c.val % n, Nat.mod_lt _ hn0, (Nat.mod_add_div _ _).symm⟩
  rw [← hV] at hπ ⊢
  refine ⟨fun i c t _ => ?_, fun c => ?_, fun c => ?_, fun t => ?_⟩
  · obtain ⟨d, hd, b, hb, e⟩ := hcoord c
    obtain ⟨k, hk, a, ha, e2⟩ := (E.field n).first_exists (k := (E.field n).N) (r := i.val) (by rw [← hn]; exact i.isLt)
    have ha' : a < n := ha
    have hi : i = ⟨a + (E.field n).first k, by rw [← e2]; exact i.isLt⟩ := Fin.ext e2
    rw [fiber_sum (φ := fun l b => fls t alpha (pairOf ((E.field n).seg l b) ((E.field n).seg k a)) true true) hn hns hπ
      (fun l hl b hb hlt => by rw [hi]; exact hf.response alpha t hk hl ha hb _ hlt) (d := d) (b := b) (by rw [hV]; exact hb) (by rw [e, hf1])]
    have hpi := hπ k hk a ha (by rw [← e2]; exact i.isLt)
    rw [hf1] at hpi
    have e3 : (π i).val = a + n * label E k := (congrArg (fun j => (π j).val) hi).trans hpi
    obtain ⟨M, hM, h⟩ := balanced_factors (alpha := alpha) hc hB hU hA hu hes t
    rw [← hV] at hM
    dsimp only
    rw [hM, Option.getD_some, e3, e, h d hd k hk b hb a ha']
    exact cluster_sum E hc d _
  · obtain ⟨d, hd, b, hb, e⟩ := hcoord c
    rw [fiber_sum (φ := fun l b => ((E.field n).seg l b).H) hn hns hπ (fun l hl b hb hlt => hf.lengthAt hl hb hlt) (d := d) (b := b) (by rw [hV]; exact hb) (by rw [e, hf1])]
    have e5 : (lengthsEq V).getD c 0 = V.segLen d b := by
      rw [e, hV]
      exact flat_get es.length n _ (by omega) hb
    have e6 : V.segLen d b = H / n * (E.cluster d).length := by
      have hs := V.sim.seg_uniform (k := d) (n := n) (a := b) (by rw [hV]; rfl) rfl hb
      unfold EqSol.segLen EqSol.size
      rw [hs.1]
      have ei : V.eb d = ⟨H, D, rb, (E.cluster d).map fun k => ((E.bore k).x, (E.bore k).y)⟩ := by rw [hV]; exact hget d hd
      show (V.eb d).H / n * _ = _
      rw [ei, List.length_map]
    have e7 : (E.cluster d).map (fun l => ((E.field n).seg l b).H) = (E.cluster d).map fun _ => H / n := List.map_congr_left fun l hl => by
      have hl := E.cluster_lt hc d hd l hl
      have hs := (E.field n).seg_uniform (k := l) (n := n) rfl (hU.tilt_eq l hl) hb
      rw [hs.1, hU.H_eq l hl]
    rw [e5, e6]
    refine (cluster_sum E hc d _).trans ?_
    rw [e7, List.map_const', List.sum_replicate, nsmul_eq_mul, mul_comm]
  · obtain ⟨d, hd, b, hb, e⟩ := hcoord c
    obtain ⟨k, hk, rfl⟩ := label_surj E hc hd
    have hlt : b + (E.field n).first k < (segmentList (bores (E.field n)) (counts (E.field n)) (ratios (E.field n))).length := by
      rw [hn]; exact index_lt hk hb
    exact ⟨⟨_, hlt⟩, Fin.ext (by rw [hπ k hk b hb hlt, hf1, e])⟩
  · obtain ⟨M, hM, -⟩ := balanced_factors (alpha := alpha) hc hB hU hA hu hes t
    rw [hV, hM]
    rfl

theorem parallel_grouped {S' : Sim} (hS' : ∀ k, S'.first k = n * k) (hns : ∀ k, S'.ns k = n) (hn0 : 0 < n) {N N' : ℕ} (hN : N = n * E.N)
    {π : Fin N → Fin N'} (hπ : SegMap (E.field n) S' (label E) π) {ain : ℕ → ℝ} {B : ℕ → ℕ → ℝ} {len : ℝ} {f : Flow N} {f' : Flow N'} (hf : ParallelFlow n ain B len f)
    (hf' : ParallelFlow n ain B len f') (h1 : f.mcp = f'.mcp) (h2 : f.R = f'.R) (h3 : f.ks = f'.ks) : GroupedFlow π f f' := by
  have hpi : ∀ i : Fin N, ∃ k < E.N, ∃ a < n, ∃ h1 h2, i = ⟨a + n * k, h1⟩ ∧ π i = ⟨a + n * label E k, h2⟩ := fun i => by
    have hk : i.val / n < E.N := Nat.div_lt_of_lt_mul (hN ▸ i.isLt)
    have ha : i.val % n < n := Nat.mod_lt _ hn0
    have e : i.val = i.val % n + n * (i.val / n) := (Nat.mod_add_div _ _).symm
    have hlt : i.val % n + n * (i.val / n) < N := by rw [← e]; exact i.isLt
    have hi : i = ⟨_, hlt⟩ := Fin.ext e
    have hlt' : i.val % n + (E.field n).first (i.val / n) < N := by rw [field_first]; exact hlt
    have := hπ (i.val / n) hk (i.val % n) ha hlt'
    rw [hS'] at this
    have hi' : i = ⟨_, hlt'⟩ := Fin.ext (by simpa only [field_first] using e)
    exact ⟨_, hk, _, ha, hlt, by rw [← this]; exact (π _).isLt, hi, Fin.ext ((congrArg (fun j => (π j).val) hi').trans this)⟩
  refine ⟨fun i => ?_, fun i c => ?_, fun i => by rw [hf.Hb, hf'.Hb], h1, h2, h3⟩
  · obtain ⟨k, hk, a, ha, h1, h2, e1, e2⟩ := hpi i
    rw [e2, e1, hf.aIn k a ha, hf'.aIn _ a ha]
  · obtain ⟨k, hk, a, ha, h1, h2, e1, e2⟩ := hpi i
    obtain ⟨d, b, hb, e⟩ : ∃ d b, b < n ∧ c.val = b + n * d := ⟨c.val / n, c.val % n, Nat.mod_lt _ hn0, (Nat.mod_add_div _ _).symm⟩
    have h4 : b + n * d < N' := by rw [← e]; exact c.isLt
    have e4 : c = ⟨_, h4⟩ := Fin.ext e
    have hfirst : N = (E.field n).first (E.field n).N := by rw [field_first]; exact hN
    rw [fiber_sum (φ := fun l b => if k = l then B a b else 0) (f := fun j => f.aB i j) hfirst (fun k _ => hns (label E k)) hπ (fun l hl b hb hlt => by
        have hlt2 : b + n * l < N := by rw [← field_first E n l]; exact hlt
        have e5 : (⟨b + (E.field n).first l, hlt⟩ : Fin N) = ⟨b + n * l, hlt2⟩ := Fin.ext (by simp only [field_first])
        rw [e5, e1, hf.aB k l a ha b hb]) (d := d) (b := b) (by rw [hns]; exact hb) (by rw [hS']; exact e),
      Finset.sum_ite_eq, e2, e4, hf'.aB _ _ a ha b hb]
    simp only [Finset.mem_filter, Finset.mem_range]
    by_cases hl : label E k = d
    · rw [if_pos ⟨hk, hl⟩, if_pos hl]
    · rw [if_neg fun h => hl h.2, if_neg hl]

theorem apart_of_spaced (hU : (E.field n).Identical H D rb n) (hsp : Gf.Spaced rb (bores (E.field n))) : E.Apart rb := by
  rw [spaced_iff] at hsp
  intro k hk l hl hkl
  have h := hsp k hk l hl hkl
  have hrb := hU.pos.2.2.1
  unfold Borehole.distance
  refine lt_of_lt_of_le ?_ (le_max_right _ _)
  refine lt_of_lt_of_le (by linarith : rb < 10 * rb) ?_
  exact Real.le_sqrt_of_sq_le h

/-- **C105** (uniform temperature).  Identical vertical boreholes with spacings of at least ten radii and distances that do not merge: when the groups are balanced, the `equivalent` solver
returns the g-function of the `detailed` solver at all times, and the heat extraction rate of a group is that of each of its boreholes, segment by segment. -/
theorem temperature_balanced (ha : 0 < alpha) {K : ℝ → Bool → Borehole → Borehole → ℝ} (hK : ∀ t s r, K t true s r = fls t alpha (pairOf s r) true true) (hc : CutOk E.cut) (hB : Balanced E)
    (hU : (E.field n).UniformField H D rb n) (hsp : Gf.Spaced rb (bores (E.field n))) {dis : List ℝ} {wDis : List ℕ} (hu : UniqueDistance E.disTol E.allDistances dis wDis)
    {time : List ℝ} (hpos : ∀ t ∈ time, 0 < t) (hs : time.Pairwise (· < ·)) {thr : ℝ} (hthr : 0 < thr) :
    ∃ es g Qs Qs', E.equivalents = some es ∧ es.length = E.clusters.2 ∧
      temperatureDetailed K (bores (E.field n)) (counts (E.field n)) (ratios (E.field n)) time thr = some (g, Qs) ∧
      temperatureEquivalent (fun t => EqSol.flsE t alpha) (fun t p => fls t alpha p true true) (E.solver es dis n (uniformRatios n)) (n * es.length) time thr = some (g, Qs') ∧
      Qs.length = time.length ∧ Qs'.length = time.length ∧
      ∀ (p : ℕ) Q Q', Qs[p]? = some Q → Qs'[p]? = some Q' → ∀ k < E.N, ∀ a < n, ∀ h h', Q ⟨a + n * k, h⟩ = Q' ⟨a + n * label E k, h'⟩ := by
  have hA := apart_of_spaced hU.toIdentical hsp
  have hf := identical_fit hU.toIdentical
  obtain ⟨es, hes, hlen, -⟩ := E.uniform_equivalents hc hU.toIdentical
  have hi := timeLong_increasing hpos hs hthr
  obtain ⟨⟨g, Qs⟩, h1⟩ := temperature_returns ha hK hf.upright hf.splits hsp hpos hs hthr
  obtain ⟨π, hπ⟩ := segMap_exists (S := E.field n) (S' := (E.solver es dis n (uniformRatios n)).sim) (γ := label E) (n' := n * es.length) (segments_count _ hf.len)
    (solver_first E es dis n _ es.length).symm (fun k hk => by show label E k < es.length; rw [hlen]; exact label_lt E hc hk) fun k _ => rfl
  obtain ⟨hG, hH, hsurj, hsome⟩ := balanced_grouped hc hB hU hA hu hes alpha hπ (timeLong time thr)
  have hdef := fun t ht => definite_grouped hsurj hG hH ht (responses_definite ha hf.upright hf.splits hsp (increasing_gt hi t ht))
  obtain ⟨⟨g', Qs'⟩, h2⟩ := ubwt_returns (H := fun c : Fin (n * es.length) => (lengthsEq (E.solver es dis n (uniformRatios n))).getD c 0) (by
      have : 0 < (E.field n).first (E.field n).N := by rw [← segments_count _ hf.len]; exact segments_nonempty hf.upright hf.splits
      exact Fin.pos (π ⟨0, by rw [segments_count _ hf.len]; exact this⟩)) _ (fun _ _ _ => rfl) hi fun m p hp hm => definite_step _ hi hdef hp hm
  have u1 := h1
  unfold temperatureDetailed at u1
  rw [if_pos fun t _ => (detailed_value hK hf.upright hf.splits t).1] at u1
  obtain ⟨rfl, rfl⟩ := ubwt_grouped (responses_sampled hK hf.upright hf.splits) (fun _ _ _ => rfl) hG hH u1 h2
  refine ⟨es, g, _, Qs', hes, hlen, h1, ?_, (ubwt_mean_one u1).2.1, (ubwt_mean_one h2).2.1, fun p Q Q' hQ hQ' k hk a ha h h' => ?_⟩
  · unfold temperatureEquivalent temperatureOf
    rw [if_pos fun t _ => hsome t]
    exact h2
  · rw [List.getElem?_map, hQ'] at hQ
    rw [← Option.some.inj hQ]
    dsimp only
    congr 1
    have hh : a + (E.field n).first k < (segmentList (bores (E.field n)) (counts (E.field n)) (ratios (E.field n))).length := by rw [field_first]; exact h
    have e : (⟨a + n * k, h⟩ : Fin (segmentList (bores (E.field n)) (counts (E.field n)) (ratios (E.field n))).length) = ⟨_, hh⟩ := Fin.ext (by simp only [field_first])
    rw [e]
    exact Fin.ext ((hπ k hk a ha hh).trans (by rw [solver_first]))

/-- **C105** (mixed inlet temperature).  The same with identical boreholes in parallel: the same g-function, heat extraction rates and temperatures. -/
theorem mixed_balanced (ha : 0 < alpha) {K : ℝ → Bool → Borehole → Borehole → ℝ} (hK : ∀ t s r, K t true s r = fls t alpha (pairOf s r) true true) (hc : CutOk E.cut) (hB : Balanced E)
    (hU : (E.field n).UniformField H D rb n) (hsp : Gf.Spaced rb (bores (E.field n))) {dis : List ℝ} {wDis : List ℕ} (hu : UniqueDistance E.disTol E.allDistances dis wDis)
    {time : List ℝ} (hpos : ∀ t ∈ time, 0 < t) (hs : time.Pairwise (· < ·)) {thr : ℝ} (hthr : 0 < thr) {es : List EqBore} (hes : E.equivalents = some es)
    {ain : ℕ → ℝ} {B : ℕ → ℕ → ℝ} {f : Flow (segmentList (bores (E.field n)) (counts (E.field n)) (ratios (E.field n))).length} {f' : Flow (n * es.length)}
    (hf : ParallelFlow n ain B (H / n) f) (hf' : ParallelFlow n ain B (H / n) f') (hm : f.mcp = f'.mcp) (hR : f.R = f'.R) (hks' : f.ks = f'.ks) (hp : Passive f fun _ => 1) (hks : 0 < f.ks) :
    ∃ g Qs Qs' Ts Ts', mixedDetailed K (bores (E.field n)) (counts (E.field n)) (ratios (E.field n)) f time thr = some (g, Qs, Ts) ∧
      mixedEquivalent (fun t => EqSol.flsE t alpha) (fun t p => fls t alpha p true true) (E.solver es dis n (uniformRatios n)) f' time thr = some (g, Qs', Ts') ∧
      Qs.length = time.length ∧ Qs'.length = time.length ∧
      (∀ (p : ℕ) Q Q', Qs[p]? = some Q → Qs'[p]? = some Q' → ∀ k < E.N, ∀ a < n, ∀ h h', Q ⟨a + n * k, h⟩ = Q' ⟨a + n * label E k, h'⟩) ∧
      ∀ k < E.N, ∀ a < n, ∀ h h', Ts ⟨a + n * k, h⟩ = Ts' ⟨a + n * label E k, h'⟩ := by
  have hA := apart_of_spaced hU.toIdentical hsp
  have hft := identical_fit hU.toIdentical
  obtain ⟨es', hes', hlen, -⟩ := E.uniform_equivalents hc hU.toIdentical
  obtain rfl := Option.some.inj (hes.symm.trans hes')
  have hi := timeLong_increasing hpos hs hthr
  have hcount := segments_count _ hft.len
  have hHb : f.Hb = segmentLengths (bores (E.field n)) (counts (E.field n)) (ratios (E.field n)) := funext fun i => by
    obtain ⟨k, hk, a, ha, e⟩ := (E.field n).first_exists (k := (E.field n).N) (r := i.val) (by rw [← hcount]; exact i.isLt)
    have hlt : a + (E.field n).first k < (segmentList (bores (E.field n)) (counts (E.field n)) (ratios (E.field n))).length := by rw [← e]; exact i.isLt
    have hi' : i = ⟨_, hlt⟩ := Fin.ext e
    rw [hf.Hb, hi', hft.lengthAt hk ha hlt, ((E.field n).seg_uniform (k := k) (n := n) rfl (hU.tilt_eq k hk) ha).1, hU.H_eq k hk]
  obtain ⟨⟨g, Qs, Ts⟩, h1⟩ := mixed_returns ha hK hft.upright hft.splits hsp hpos hs hthr hp hks hHb
  obtain ⟨π, hπ⟩ := segMap_exists (S := E.field n) (S' := (E.solver es dis n (uniformRatios n)).sim) (γ := label E) (n' := n * es.length) hcount
    (solver_first E es dis n _ es.length).symm (fun k hk => by show label E k < es.length; rw [hlen]; exact label_lt E hc hk) fun k _ => rfl
  obtain ⟨hG, hH, hsurj, hsome⟩ := balanced_grouped hc hB hU hA hu hes alpha hπ (timeLong time thr)
  have hGF : GroupedFlow π f f' := parallel_grouped (fun k => solver_first E es dis n _ k) (fun _ => rfl) hU.pos.2.2.2 (by rw [hcount, field_first]; rfl) hπ hf hf' hm hR hks'
  have hdef := fun t ht => definite_grouped hsurj hG hH ht (responses_definite ha hft.upright hft.splits hsp (increasing_gt hi t ht))
  have hlen0 : 0 < H / (n : ℝ) := div_pos hU.pos.1 (by exact_mod_cast hU.pos.2.2.2)
  obtain ⟨⟨g', Qs', Ts'⟩, h2⟩ := mift_returns (H := fun c : Fin (n * es.length) => (lengthsEq (E.solver es dis n (uniformRatios n))).getD c 0) _ (fun _ _ _ => rfl) hi
    (fun m p hp hm => definite_step _ hi hdef hp hm) (passive_grouped hsurj hGF hp) (hks' ▸ hks) (fun i => by rw [hf'.Hb]; exact hlen0) fun c => by
      rw [← hH c, ← hHb, hf'.Hb]
      simp only [hf.Hb]
      rw [Finset.sum_const, nsmul_eq_mul]
  have u1 := h1
  unfold mixedDetailed at u1
  rw [if_pos fun t _ => (detailed_value hK hft.upright hft.splits t).1] at u1
  obtain ⟨rfl, rfl, hT⟩ := mift_grouped (responses_sampled hK hft.upright hft.splits) (fun _ _ _ => rfl) hG hGF hH u1 h2
  have hidx : ∀ k < E.N, ∀ a < n, ∀ h h', π ⟨a + n * k, h⟩ = ⟨a + n * label E k, h'⟩ := fun k hk a ha h h' => by
    have hh : a + (E.field n).first k < (segmentList (bores (E.field n)) (counts (E.field n)) (ratios (E.field n))).length := by rw [field_first]; exact h
    have e : (⟨a + n * k, h⟩ : Fin (segmentList (bores (E.field n)) (counts (E.field n)) (ratios (E.field n))).length) = ⟨_, hh⟩ := Fin.ext (by simp only [field_first])
    rw [e]
    exact Fin.ext ((hπ k hk a ha hh).trans (by rw [solver_first]))
  refine ⟨g, _, Qs', Ts, Ts', h1, ?_, (mift_mean_one u1).2.1, (mift_mean_one h2).2.1, fun p Q Q' hQ hQ' k hk a ha h h' => ?_, fun k hk a ha h h' => ?_⟩
  · unfold mixedEquivalent mixedOf
    rw [if_pos fun t _ => hsome t]
    exact h2
  · rw [List.getElem?_map, hQ'] at hQ
    rw [← Option.some.inj hQ]
    dsimp only
    rw [hidx k hk a ha h h']
  · rw [hT, hidx k hk a ha h h']

end Verif.Gf
