import Verif.Gf.RingProps
import Verif.Gf.RefineProps
import Verif.Sol.StableProps

/-!
# Grouping boreholes never lowers the first value of the g-function with a uniform temperature
-/

noncomputable section

namespace Verif.Gf

open Bore FLS Sol Finset EqIn

/-! ### Averages over groups -/

section

variable {n m : ℕ} {π : Fin n → Fin m} {H : Fin n → ℝ} {H' : Fin m → ℝ} {F : Fin n → Fin n → ℝ} {F' : Fin m → Fin m → ℝ}

/-- The response factor of a group at another is the mean, over the segments of the other group, of the sum of the response factors of its segments. -/
def Averaged (π : Fin n → Fin m) (H : Fin n → ℝ) (F : Fin n → Fin n → ℝ) (H' : Fin m → ℝ) (F' : Fin m → Fin m → ℝ) : Prop :=
  ∀ c d, H' c * F' c d = ∑ i with π i = c, H i * ∑ k with π k = d, F i k

theorem averaged_energy (hA : Averaged π H F H' F') (q : Fin m → ℝ) : ∑ c, H' c * q c * ∑ d, F' c d * q d = ∑ i, H i * q (π i) * ∑ k, F i k * q (π k) := by
  have e1 : ∀ i, ∑ k, F i k * q (π k) = ∑ d, (∑ k with π k = d, F i k) * q d := fun i => sum_lift π (fun k => F i k) q
  rw [← Finset.sum_fiberwise Finset.univ π]
  refine Finset.sum_congr rfl fun c _ => ?_
  have e2 : ∀ i ∈ Finset.univ.filter (fun i => π i = c), H i * q (π i) * ∑ k, F i k * q (π k) = ∑ d, H i * (∑ k with π k = d, F i k) * (q c * q d) := fun i hi => by
    rw [e1, (Finset.mem_filter.mp hi).2, Finset.mul_sum]
    exact Finset.sum_congr rfl fun d _ => by ring
  rw [Finset.sum_congr rfl e2, Finset.sum_comm, Finset.mul_sum]
  refine Finset.sum_congr rfl fun d _ => ?_
  rw [← Finset.sum_mul, ← hA c d]
  ring

theorem averaged_definite (hsurj : ∀ c, ∃ i, π i = c) (hA : Averaged π H F H' F') (hd : Definite H F) : Definite H' F' := fun q hq => by
  rw [averaged_energy hA q]
  exact hd (fun i => q (π i)) fun h0 => hq (funext fun c => by
    obtain ⟨i, rfl⟩ := hsurj c
    exact congrFun h0 i)

theorem averaged_symm (hA : Averaged π H F H' F') (hsym : ∀ i j, H i * F i j = H j * F j i) (c d : Fin m) : H' c * F' c d = H' d * F' d c := by
  rw [hA, hA]
  simp only [Finset.mul_sum]
  rw [Finset.sum_comm]
  exact Finset.sum_congr rfl fun k _ => Finset.sum_congr rfl fun i _ => hsym i k

theorem averaged_mean (hH : ∀ c, ∑ k with π k = c, H k = H' c) (q : Fin m → ℝ) : ∑ i, H i * q (π i) = ∑ c, H' c * q c := by
  rw [sum_lift π H q]
  exact Finset.sum_congr rfl fun c _ => by rw [hH]

end

/-! ### The groups of the `equivalent` solver -/

variable {E : EqIn} {H D rb alpha : ℝ} {n : ℕ}

/-- The means over groups are averages over the groups of the segments of the field, however the boreholes are grouped. -/
theorem cluster_averaged (hc : CutOk E.cut) (hU : (E.field n).Identical H D rb n) (dis : List ℝ) {es : List EqBore} (hes : E.equivalents = some es) (alpha : ℝ)
    {π : Fin (segmentList (bores (E.field n)) (counts (E.field n)) (ratios (E.field n))).length → Fin (n * es.length)}
    (hπ : SegMap (E.field n) (E.solver es dis n (uniformRatios n)).sim (label E) π) :
    (∀ t, Averaged π (segmentLengths (bores (E.field n)) (counts (E.field n)) (ratios (E.field n)))
      (fun i k => segmentResponse alpha (bores (E.field n)) (counts (E.field n)) (ratios (E.field n)) i k t) (fun c => (lengthsEq (E.solver es dis n (uniformRatios n))).getD c 0)
      fun c d => (E.solver es dis n (uniformRatios n)).clusterMean t alpha (d.val / n) (c.val / n) (d.val % n) (c.val % n)) ∧
    (∀ c, ∑ k with π k = c, segmentLengths (bores (E.field n)) (counts (E.field n)) (ratios (E.field n)) k = (lengthsEq (E.solver es dis n (uniformRatios n))).getD c 0) ∧
    (∀ c, ∃ i, π i = c) ∧ ∀ c : Fin (n * es.length), 0 < (lengthsEq (E.solver es dis n (uniformRatios n))).getD c 0 := by
  obtain ⟨es', hes', hlen, hget⟩ := E.uniform_equivalents hc hU
  obtain rfl := Option.some.inj (hes.symm.trans hes')
  have hf := identical_fit hU
  have hn := segments_count _ hf.len
  obtain ⟨V, hV⟩ : ∃ V, V = E.solver es dis n (uniformRatios n) := ⟨_, rfl⟩
  have hf1 : ∀ k, V.sim.first k = n * k := fun k => by rw [hV]; exact solver_first E es dis n _ k
  have hns : ∀ k < (E.field n).N, V.sim.ns (label E k) = (E.field n).ns k := fun k _ => by rw [hV]; rfl
  have hn0 : 0 < n := hU.pos.2.2.2
  have hcoord : ∀ c : Fin (n * es.length), c.val / n < E.clusters.2 ∧ c.val % n < n ∧ c.val = c.val % n + n * (c.val / n) := fun c => by
    have hc' := c.isLt
    exact ⟨by rw [← hlen]; exact Nat.div_lt_of_lt_mul hc', Nat.mod_lt _ hn0, (Nat.mod_add_div _ _).symm⟩
  have hseg : ∀ d < E.clusters.2, ∀ b < n, ∀ c : Fin (n * es.length), c.val = b + n * d → (lengthsEq V).getD c 0 = H / n * (E.cluster d).length := fun d hd b hb c e => by
    have e5 : (lengthsEq V).getD c 0 = V.segLen d b := by
      rw [e, hV]
      exact flat_get es.length n _ (by omega) hb
    have hs := V.sim.seg_uniform (k := d) (n := n) (a := b) (by rw [hV]; rfl) rfl hb
    rw [e5]
    unfold EqSol.segLen EqSol.size
    rw [hs.1]
    have ei : V.eb d = ⟨H, D, rb, (E.cluster d).map fun k => ((E.bore k).x, (E.bore k).y)⟩ := by rw [hV]; exact hget d hd
    show (V.eb d).H / n * _ = _
    rw [ei, List.length_map]
  have hclpos : ∀ d < E.clusters.2, (0 : ℝ) < (E.cluster d).length := fun d hd => by
    obtain ⟨k, hk, rfl⟩ := label_surj E hc hd
    exact_mod_cast List.length_pos_of_mem ((mem_cluster E hc).mpr ⟨hk, rfl⟩)
  have hsegH : ∀ l < E.N, ∀ b < n, ((E.field n).seg l b).H = H / n := fun l hl b hb => by
    rw [((E.field n).seg_uniform (k := l) (n := n) rfl (hU.tilt_eq l hl) hb).1, hU.H_eq l hl]
  have hfac : ∀ t, ∀ i < E.clusters.2, ∀ j < E.clusters.2, ∀ a < n, ∀ b < n,
      V.clusterMean t alpha i j a b * (E.cluster j).length = ((E.cluster j).map fun l => ((E.cluster i).map fun k => fls t alpha (pairOf ((E.field n).seg k a) ((E.field n).seg l b)) true true).sum).sum :=
    fun t i hi j hj a ha b hb => by
    obtain ⟨M', hM', h2⟩ := (E.field n).detailed_entries t alpha (Sim.Identical.valid _ hU) (Sim.Identical.same _ hU)
      (K := fun _ s r => fls t alpha (pairOf s r) true true) (fun _ _ => rfl)
    have h4 := E.clusterMean_detailed t alpha hc hU dis hes h2 hi hj ha hb
    rw [← hV] at h4
    rw [h4, div_mul_cancel₀ _ (hclpos j hj).ne']
    congr 1
    refine List.map_congr_left fun l hl => ?_
    congr 1
    refine List.map_congr_left fun k hk => ?_
    have := h2 k (E.cluster_lt hc i hi k hk) l (E.cluster_lt hc _ hj l hl) a ha b hb
    rwa [field_first, field_first] at this
  rw [← hV] at hπ ⊢
  refine ⟨fun t c c' => ?_, fun c => ?_, fun c => ?_, fun c => ?_⟩
  · obtain ⟨hd, hb, e⟩ := hcoord c
    obtain ⟨hd', hb', e'⟩ := hcoord c'
    obtain ⟨d, hd0⟩ : ∃ d, d = c.val / n := ⟨_, rfl⟩
    obtain ⟨b, hb0⟩ : ∃ b, b = c.val % n := ⟨_, rfl⟩
    obtain ⟨d', hd0'⟩ : ∃ d', d' = c'.val / n := ⟨_, rfl⟩
    obtain ⟨b', hb0'⟩ : ∃ b', b' = c'.val % n := ⟨_, rfl⟩
    rw [← hd0] at hd e
    rw [← hb0] at hb e
    rw [← hd0'] at hd' e'
    rw [← hb0'] at hb' e'
    dsimp only
    rw [hseg d hd b hb c e, ← hd0, ← hb0, ← hd0', ← hb0', mul_assoc, mul_comm ((E.cluster d).length : ℝ), hfac t d' hd' d hd b' hb' b hb]
    rw [fiber_sum (f := fun i => segmentLengths (bores (E.field n)) (counts (E.field n)) (ratios (E.field n)) i *
        ∑ k with π k = c', segmentResponse alpha (bores (E.field n)) (counts (E.field n)) (ratios (E.field n)) i k t)
      (φ := fun l b => ((E.field n).seg l b).H * ((E.cluster d').map fun k => fls t alpha (pairOf ((E.field n).seg k b') ((E.field n).seg l b)) true true).sum) hn hns hπ
      (fun l hl b hb hlt => by
        rw [hf.lengthAt hl hb hlt]
        congr 1
        rw [fiber_sum (φ := fun k b' => fls t alpha (pairOf ((E.field n).seg k b') ((E.field n).seg l b)) true true) hn hns hπ
          (fun k hk b' hb' hlt' => hf.response alpha t hl hk hb hb' hlt hlt') (d := d') (b := b') (by rw [hV]; exact hb') (by rw [e', hf1])]
        exact cluster_sum E hc d' _) (d := d) (b := b) (by rw [hV]; exact hb) (by rw [e, hf1])]
    refine Eq.trans ?_ (cluster_sum E hc d _).symm
    rw [← List.sum_map_mul_left]
    congr 1
    exact List.map_congr_left fun l hl => by rw [hsegH l (E.cluster_lt hc d hd l hl) b hb]
  · obtain ⟨hd, hb, e⟩ := hcoord c
    rw [fiber_sum (φ := fun l b => ((E.field n).seg l b).H) hn hns hπ (fun l hl b hb hlt => hf.lengthAt hl hb hlt) (d := c.val / n) (b := c.val % n) (by rw [hV]; exact hb) (by rw [hf1]; exact e)]
    rw [hseg _ hd _ hb c e]
    refine (cluster_sum E hc _ _).trans ?_
    rw [List.map_congr_left fun l hl => hsegH l (E.cluster_lt hc _ hd l hl) _ hb, List.map_const', List.sum_replicate, nsmul_eq_mul, mul_comm]
  · obtain ⟨hd, hb, e⟩ := hcoord c
    obtain ⟨k, hk, hkd⟩ := label_surj E hc hd
    have hlt : c.val % n + (E.field n).first k < (segmentList (bores (E.field n)) (counts (E.field n)) (ratios (E.field n))).length := by
      rw [hn]; exact index_lt hk hb
    exact ⟨⟨_, hlt⟩, Fin.ext (by rw [hπ k hk _ hb hlt, hf1, hkd, ← e])⟩
  · obtain ⟨hd, hb, e⟩ := hcoord c
    rw [hseg _ hd _ hb c e]
    exact mul_pos (div_pos hU.pos.1 (by exact_mod_cast hn0)) (hclpos _ hd)

/-- The segments of the `equivalent` solver are averages over the groups of the segments of the field, however the boreholes are grouped. -/
theorem equivalent_averaged (hc : CutOk E.cut) (hU : (E.field n).UniformField H D rb n) (hA : E.Apart rb) {dis : List ℝ} {wDis : List ℕ}
    (hu : UniqueDistance E.disTol E.allDistances dis wDis) {es : List EqBore} (hes : E.equivalents = some es) (alpha t : ℝ) :
    ∃ M, (E.solver es dis n (uniformRatios n)).factors (EqSol.flsE t alpha) (fun p => fls t alpha p true true) = some M ∧
      ∀ c d : Fin (n * es.length), M c d = (E.solver es dis n (uniformRatios n)).clusterMean t alpha (d.val / n) (c.val / n) (d.val % n) (c.val % n) := by
  have hn0 : 0 < n := hU.pos.2.2.2
  obtain ⟨M, hM, h⟩ := (E.solver es dis n (uniformRatios n)).equivalent_exact (E.uniform_exact hc hU hA hu hes) t alpha
  refine ⟨M, hM, fun c d => ?_⟩
  have h3 := h (d.val / n) (Nat.div_lt_of_lt_mul d.isLt) (c.val / n) (Nat.div_lt_of_lt_mul c.isLt) (d.val % n) (Nat.mod_lt _ hn0) (c.val % n) (Nat.mod_lt _ hn0)
  rw [solver_first, solver_first, Nat.mod_add_div, Nat.mod_add_div] at h3
  exact h3

/-- What the `equivalent` solver returns: it returns, and its first value is that of a system averaged over the groups. -/
theorem equivalent_first {S : Sim} (hS : S = E.field n) (ha : 0 < alpha) (hc : CutOk E.cut) (hU : (E.field n).UniformField H D rb n) (hsp : Gf.Spaced rb (bores (E.field n))) {dis : List ℝ} {wDis : List ℕ}
    (hu : UniqueDistance E.disTol E.allDistances dis wDis) {time : List ℝ} (hpos : ∀ t ∈ time, 0 < t) (hs : time.Pairwise (· < ·)) {thr : ℝ} (hthr : 0 < thr) :
    ∃ es g Qs, E.equivalents = some es ∧ es.length = E.clusters.2 ∧
      temperatureEquivalent (fun t => EqSol.flsE t alpha) (fun t p => fls t alpha p true true) (E.solver es dis n (uniformRatios n)) (n * es.length) time thr = some (g, Qs) ∧
      g.length = time.length ∧ Qs.length = time.length ∧
      ∃ (π : Fin (segmentList (bores S) (counts S) (ratios S)).length → Fin (n * es.length)) (H' : Fin (n * es.length) → ℝ)
        (F' : ℝ → Fin (n * es.length) → Fin (n * es.length) → ℝ),
        (∀ t, Averaged π (segmentLengths (bores S) (counts S) (ratios S))
          (fun i k => segmentResponse alpha (bores S) (counts S) (ratios S) i k t) H' (F' t)) ∧
        (∀ c, ∑ k with π k = c, segmentLengths (bores S) (counts S) (ratios S) k = H' c) ∧ (∀ c, ∃ i, π i = c) ∧ (∀ c, 0 < H' c) ∧
        (∀ i, (π i).val = i.val % n + n * label E (i.val / n)) ∧
        ∀ (k : ℕ) (t : ℝ), time[k]? = some t → k = 0 ∨ t ≤ thr → ∃ (T : ℝ) (Q : Fin (n * es.length) → ℝ), g[k]? = some (if t ≤ thr then T * t / thr else T) ∧
          (∀ i, T = ∑ j, F' (if t ≤ thr then thr else t) i j * Q j) ∧ MeanOne H' Q := by
  subst hS
  have hA := apart_of_spaced hU.toIdentical hsp
  have hf := identical_fit hU.toIdentical
  obtain ⟨es, hes, hlen, -⟩ := E.uniform_equivalents hc hU.toIdentical
  have hi := timeLong_increasing hpos hs hthr
  obtain ⟨π, hπ⟩ := segMap_exists (S := E.field n) (S' := (E.solver es dis n (uniformRatios n)).sim) (γ := label E) (n' := n * es.length) (segments_count _ hf.len)
    (solver_first E es dis n _ es.length).symm (fun k hk => by show label E k < es.length; rw [hlen]; exact label_lt E hc hk) fun k _ => rfl
  obtain ⟨hG0, hH, hsurj, hHpos⟩ := cluster_averaged hc hU.toIdentical dis hes alpha hπ
  have hM := equivalent_averaged hc hU hA hu hes alpha
  have hsome : ∀ t, ((E.solver es dis n (uniformRatios n)).factors (EqSol.flsE t alpha) fun p => fls t alpha p true true).isSome := fun t => by
    obtain ⟨M, hM, -⟩ := hM t
    rw [hM]
    rfl
  have hG : ∀ t, Averaged π (segmentLengths (bores (E.field n)) (counts (E.field n)) (ratios (E.field n)))
      (fun i k => segmentResponse alpha (bores (E.field n)) (counts (E.field n)) (ratios (E.field n)) i k t) (fun c => (lengthsEq (E.solver es dis n (uniformRatios n))).getD c 0)
      fun i j => (((E.solver es dis n (uniformRatios n)).factors (EqSol.flsE t alpha) fun p => fls t alpha p true true).getD fun _ _ => 0) i j := fun t c d => by
    obtain ⟨M, hM, h⟩ := hM t
    rw [← hG0 t c d, hM, Option.getD_some]
    dsimp only
    rw [h c d]
  have hdef := fun t ht => averaged_definite hsurj (hG t) (responses_definite ha hf.upright hf.splits hsp (increasing_gt hi t ht))
  have hpos0 : 0 < n * es.length := by
    have : 0 < (E.field n).first (E.field n).N := by rw [← segments_count _ hf.len]; exact segments_nonempty hf.upright hf.splits
    exact Fin.pos (π ⟨0, by rw [segments_count _ hf.len]; exact this⟩)
  obtain ⟨⟨g, Qs⟩, h2⟩ := ubwt_returns (H := fun c : Fin (n * es.length) => (lengthsEq (E.solver es dis n (uniformRatios n))).getD c 0) hpos0
    (fun i j t => (((E.solver es dis n (uniformRatios n)).factors (EqSol.flsE t alpha) fun p => fls t alpha p true true).getD fun _ _ => 0) i j)
    (fun _ _ _ => rfl) hi fun m p hp hm => definite_step _ hi hdef hp hm
  refine ⟨es, g, Qs, hes, hlen, ?_, (ubwt_mean_one h2).1, (ubwt_mean_one h2).2.1, π, _, _, hG, hH, hsurj, hHpos, fun i => ?_, fun k t hk hkt => ?_⟩
  · unfold temperatureEquivalent temperatureOf
    rw [if_pos fun t _ => hsome t]
    exact h2
  · have hn0 : 0 < n := hU.pos.2.2.2
    have hN : i.val < n * E.N := i.isLt.trans_eq ((segments_count _ hf.len).trans (field_first E n _))
    have hk : i.val / n < E.N := Nat.div_lt_of_lt_mul hN
    have e : i.val = i.val % n + (E.field n).first (i.val / n) := by rw [field_first]; exact (Nat.mod_add_div _ _).symm
    have hlt : i.val % n + (E.field n).first (i.val / n) < (segmentList (bores (E.field n)) (counts (E.field n)) (ratios (E.field n))).length := by rw [← e]; exact i.isLt
    have hi' : i = ⟨_, hlt⟩ := Fin.ext e
    have := hπ (i.val / n) hk (i.val % n) (Nat.mod_lt _ hn0) hlt
    rw [solver_first] at this
    exact (congrArg (fun j => (π j).val) hi').trans this
  · obtain ⟨T, Q, h3, -, h4, h5⟩ := ubwt_first_value (F := fun i j t => (((E.solver es dis n (uniformRatios n)).factors (EqSol.flsE t alpha) fun p => fls t alpha p true true).getD fun _ _ => 0) i j)
      (fun _ _ _ => rfl) hpos hs hthr h2 hk hkt
    exact ⟨T, Q, h3, h4, h5⟩

theorem first_le {T T' t thr : ℝ} (ht : 0 < t) (hthr : 0 < thr) (h : T ≤ T') : (if t ≤ thr then T * t / thr else T) ≤ if t ≤ thr then T' * t / thr else T' := by
  split_ifs
  · gcongr
  · exact h

/-- **C151.**  Identical vertical boreholes with spacings of at least ten radii and distances that do not merge, grouped in any way: the `equivalent` solver returns a g-function for a uniform
temperature, and its first value, and those under the threshold, lie between those of the `detailed` solver for a uniform temperature and for a uniform heat extraction rate. -/
theorem equivalent_between (ha : 0 < alpha) {K : ℝ → Bool → Borehole → Borehole → ℝ} (hK : ∀ t s r, K t true s r = fls t alpha (pairOf s r) true true) (hc : CutOk E.cut)
    (hU : (E.field n).UniformField H D rb n) (hsp : Gf.Spaced rb (bores (E.field n))) {dis : List ℝ} {wDis : List ℕ} (hu : UniqueDistance E.disTol E.allDistances dis wDis)
    {time : List ℝ} (hpos : ∀ t ∈ time, 0 < t) (hs : time.Pairwise (· < ·)) {thr : ℝ} (hthr : 0 < thr) :
    ∃ es g Qs g' Qs' g'', E.equivalents = some es ∧ es.length = E.clusters.2 ∧
      temperatureDetailed K (bores (E.field n)) (counts (E.field n)) (ratios (E.field n)) time thr = some (g, Qs) ∧
      temperatureEquivalent (fun t => EqSol.flsE t alpha) (fun t p => fls t alpha p true true) (E.solver es dis n (uniformRatios n)) (n * es.length) time thr = some (g', Qs') ∧
      uniformDetailed K (bores (E.field n)) (counts (E.field n)) (ratios (E.field n)) time thr = some g'' ∧
      g.length = time.length ∧ g'.length = time.length ∧ g''.length = time.length ∧
      ∀ (k : ℕ) (t : ℝ), time[k]? = some t → k = 0 ∨ t ≤ thr → ∃ v v' v'', g[k]? = some v ∧ g'[k]? = some v' ∧ g''[k]? = some v'' ∧ 0 < v ∧ v ≤ v' ∧ v' ≤ v'' := by
  have hf := identical_fit hU.toIdentical
  obtain ⟨es, g', Qs', hes, hlen, h2, l2, -, π, H', F', hG, hH, hsurj, hHpos, -, hfirst⟩ := equivalent_first rfl ha hc hU hsp hu hpos hs hthr
  obtain ⟨⟨g, Qs⟩, h1⟩ := temperature_returns ha hK hf.upright hf.splits hsp hpos hs hthr
  obtain ⟨l1, -, -, g'', h3, hb⟩ := temperature_first ha hK hf.upright hf.splits hsp hpos hs hthr h1
  have hsle := hs.imp fun {a b : ℝ} (h : a < b) => h.le
  obtain ⟨w, hw, l3, hv⟩ := uniform_field hK hf.upright hf.splits hsle thr
  obtain rfl := Option.some.inj (h3.symm.trans hw)
  refine ⟨es, g, Qs, g', Qs', g'', hes, hlen, h1, h2, h3, l1, l2, l3, fun k t hk hkt => ?_⟩
  have ht := hpos t (List.mem_of_getElem? hk)
  obtain ⟨T, Q, e1, e2, e3⟩ := first_value hK hf.upright hf.splits hpos hs hthr h1 hk hkt
  obtain ⟨T', Q', e1', e2', e3'⟩ := hfirst k t hk hkt
  obtain ⟨τ, hτ⟩ : ∃ τ, τ = if t ≤ thr then thr else t := ⟨_, rfl⟩
  have hτ0 : 0 < τ := by rw [hτ]; split_ifs <;> assumption
  rw [← hτ] at e2 e2'
  have hdef : Definite (segmentLengths (bores (E.field n)) (counts (E.field n)) (ratios (E.field n)))
      (fun i k => segmentResponse alpha (bores (E.field n)) (counts (E.field n)) (ratios (E.field n)) i k τ) := responses_definite ha hf.upright hf.splits hsp hτ0
  have hsym := segment_reciprocity (alpha := alpha) hf.upright hf.splits τ
  have hL : ∑ i, segmentLengths (bores (E.field n)) (counts (E.field n)) (ratios (E.field n)) i = ∑ c, H' c := by
    have := averaged_mean hH fun _ => 1
    simpa only [mul_one] using this
  have hHp : ∀ i, 0 < segmentLengths (bores (E.field n)) (counts (E.field n)) (ratios (E.field n)) i := fun i => (segment_upright hf.upright hf.splits (List.getElem_mem i.isLt)).2.2
  have hW : 0 < ∑ i, segmentLengths (bores (E.field n)) (counts (E.field n)) (ratios (E.field n)) i :=
    Finset.sum_pos (fun i _ => hHp i) ⟨⟨0, segments_nonempty hf.upright hf.splits⟩, Finset.mem_univ _⟩
  have hn' : 0 < n * es.length := Fin.pos (π ⟨0, segments_nonempty hf.upright hf.splits⟩)
  have hen : ∑ c, H' c * Q' c * ∑ d, F' τ c d * Q' d = T' * ∑ c, H' c := by
    simp only [← e2']
    rw [← Finset.sum_mul, e3', mul_comm]
  have low : T ≤ T' := by
    have h := energy_least hdef hsym e2 (P := fun i => Q' (π i)) (by
      rw [averaged_mean hH Q', e3', e3, hL])
    rw [e3] at h
    have h' := h.trans_eq (averaged_energy (hG τ) Q').symm
    rw [hen, ← hL] at h'
    exact le_of_mul_le_mul_right h' hW
  have up : T' ≤ fieldResponse alpha (bores (E.field n)) τ := by
    obtain ⟨-, h⟩ := energy_bound hn' hHpos (averaged_definite hsurj (hG τ) hdef) (averaged_symm (hG τ) hsym) e2' e3'
    have e := averaged_energy (hG τ) fun _ => 1
    simp only [mul_one] at e
    rw [e, segments_mean (alpha := alpha) hf.upright hf.splits τ, ← hL] at h
    exact le_of_mul_le_mul_right h hW
  obtain ⟨v, w, b1, -, b2, -⟩ := hb k t hk hkt
  obtain rfl := Option.some.inj (b1.symm.trans e1)
  refine ⟨_, _, _, e1, e1', hv k t hk, b2, first_le ht hthr low, ?_⟩
  have h := first_le ht hthr up
  refine h.trans_eq ?_
  rw [hτ]
  split_ifs <;> rfl

/-- **C151** (finer groups).  Of two ways of grouping the same boreholes, one finer than the other, the finer has the lower first value, as well as those under the threshold. -/
theorem equivalent_finer (ha : 0 < alpha) {cut' : List ℝ → ℕ × List ℕ} (hc : CutOk E.cut) (hc' : CutOk cut') (hfine : ∀ k < E.N, ∀ l < E.N, label E k = label E l → label { E with cut := cut' } k = label { E with cut := cut' } l)
    (hU : (E.field n).UniformField H D rb n) (hsp : Gf.Spaced rb (bores (E.field n))) {dis : List ℝ} {wDis : List ℕ} (hu : UniqueDistance E.disTol E.allDistances dis wDis)
    {time : List ℝ} (hpos : ∀ t ∈ time, 0 < t) (hs : time.Pairwise (· < ·)) {thr : ℝ} (hthr : 0 < thr) :
    ∃ es g Qs es' g' Qs', E.equivalents = some es ∧ EqIn.equivalents { E with cut := cut' } = some es' ∧ es'.length ≤ es.length ∧
      temperatureEquivalent (fun t => EqSol.flsE t alpha) (fun t p => fls t alpha p true true) (E.solver es dis n (uniformRatios n)) (n * es.length) time thr = some (g, Qs) ∧
      temperatureEquivalent (fun t => EqSol.flsE t alpha) (fun t p => fls t alpha p true true) (EqIn.solver { E with cut := cut' } es' dis n (uniformRatios n)) (n * es'.length) time thr = some (g', Qs') ∧
      g.length = time.length ∧ g'.length = time.length ∧
      ∀ (k : ℕ) (t : ℝ), time[k]? = some t → k = 0 ∨ t ≤ thr → ∃ v v', g[k]? = some v ∧ g'[k]? = some v' ∧ 0 < v ∧ v ≤ v' := by
  have hf := identical_fit hU.toIdentical
  have hn0 : 0 < n := hU.pos.2.2.2
  obtain ⟨es, g, Qs, hes, hlen, h1, l1, -, π, H1, F1, hG, hH, hsurj, hHpos, hπ, hfirst⟩ := equivalent_first rfl ha hc hU hsp hu hpos hs hthr
  obtain ⟨es', g', Qs', hes', hlen', h2, l2, -, π', H2, F2, hG', hH', hsurj', hHpos', hπ', hfirst'⟩ :=
    equivalent_first (E := { E with cut := cut' }) (n := n) (H := H) (D := D) (rb := rb) (dis := dis) (wDis := wDis) (S := E.field n) rfl ha hc' hU hsp hu hpos hs hthr
  have hbore : ∀ i : Fin (segmentList (bores (E.field n)) (counts (E.field n)) (ratios (E.field n))).length, i.val / n < E.N := fun i => by
    exact Nat.div_lt_of_lt_mul (i.isLt.trans_eq ((segments_count _ hf.len).trans (field_first E n _)))
  have hσ : ∀ c, ∃ c', ∀ i, π i = c → π' i = c' := fun c => by
    obtain ⟨i, hi⟩ := hsurj c
    refine ⟨π' i, fun j hj => Fin.ext ?_⟩
    have e := congrArg Fin.val (hj.trans hi.symm)
    rw [hπ, hπ] at e
    have e1 : j.val % n = i.val % n := by
      have := congrArg (· % n) e
      simpa only [Nat.add_mul_mod_self_left, Nat.mod_mod] using this
    have e2 : label E (j.val / n) = label E (i.val / n) := by
      rw [e1] at e
      exact Nat.eq_of_mul_eq_mul_left hn0 (Nat.add_left_cancel e)
    rw [hπ', hπ', e1, hfine _ (hbore j) _ (hbore i) e2]
  choose σ hσ using hσ
  have hσ' : ∀ i, π' i = σ (π i) := fun i => hσ _ i rfl
  have hes_le : n * es'.length ≤ n * es.length := by
    have hs : Function.Surjective σ := fun c' => by
      obtain ⟨i, rfl⟩ := hsurj' c'
      exact ⟨π i, (hσ' i).symm⟩
    simpa using Fintype.card_le_of_surjective σ hs
  refine ⟨es, g, Qs, es', g', Qs', hes, hes', Nat.le_of_mul_le_mul_left hes_le hn0, h1, h2, l1, l2, fun k t hk hkt => ?_⟩
  have ht := hpos t (List.mem_of_getElem? hk)
  obtain ⟨T, Q, e1, e2, e3⟩ := hfirst k t hk hkt
  obtain ⟨T', Q', e1', e2', e3'⟩ := hfirst' k t hk hkt
  obtain ⟨τ, hτ⟩ : ∃ τ, τ = if t ≤ thr then thr else t := ⟨_, rfl⟩
  have hτ0 : 0 < τ := by rw [hτ]; split_ifs <;> assumption
  rw [← hτ] at e2 e2'
  have hdef := averaged_definite hsurj (hG τ) (responses_definite ha hf.upright hf.splits hsp hτ0)
  have hsym := averaged_symm (hG τ) (segment_reciprocity (alpha := alpha) hf.upright hf.splits τ)
  have hL1 := averaged_mean hH fun _ => 1
  have hL2 := averaged_mean hH' fun _ => 1
  simp only [mul_one] at hL1 hL2
  have hn' : 0 < n * es.length := Fin.pos (π ⟨0, segments_nonempty hf.upright hf.splits⟩)
  have hW : 0 < ∑ c, H1 c := Finset.sum_pos (fun i _ => hHpos i) ⟨⟨0, hn'⟩, Finset.mem_univ _⟩
  have low : T ≤ T' := by
    have h := energy_least hdef hsym e2 (P := fun c => Q' (σ c)) (by
      rw [← averaged_mean hH fun c => Q' (σ c)]
      simp only [← hσ']
      rw [e3, averaged_mean hH' Q', e3', ← hL1, ← hL2])
    rw [e3] at h
    have e := averaged_energy (hG τ) fun c => Q' (σ c)
    simp only [← hσ'] at e
    rw [e, ← averaged_energy (hG' τ) Q'] at h
    simp only [← e2'] at h
    rw [← Finset.sum_mul, e3', ← hL2, mul_comm _ T', ← hL1] at h
    exact le_of_mul_le_mul_right h (hL1 ▸ hW)
  have hT : 0 < T := (energy_bound hn' hHpos hdef hsym e2 e3).1
  refine ⟨_, _, e1, e1', ?_, first_le ht hthr low⟩
  split_ifs <;> positivity

/-- With a clustering that never splits, identical boreholes form one group. -/
theorem identical_one (hU : (E.field n).Identical H D rb n) (hcut : E.cut = oneCluster) {k : ℕ} (hk : k < E.N) : label E k = 0 := by
  have hc : CutOk E.cut := hcut ▸ oneCluster_ok
  suffices h : E.clusters.2 = 1 by
    have := label_lt E hc hk
    omega
  have hN : 0 < E.N := hU.size
  have hdims : ∀ i < E.N, cmpDims E.tol (E.bore i) (E.bore 0) := fun i hi => by
    have h1 : (E.bore i).H = H := hU.H_eq i hi
    have h2 : (E.bore 0).H = H := hU.H_eq 0 hN
    have h3 : (E.bore i).D = D := hU.D_eq i hi
    have h4 : (E.bore 0).D = D := hU.D_eq 0 hN
    have h5 : (E.bore i).rb = rb := hU.rb_eq i hi
    have h6 : (E.bore 0).rb = rb := hU.rb_eq 0 hN
    have ht : 0 < E.tol := hU.tol_eq.1
    unfold cmpDims
    rw [h1, h2, h3, h4, h5, h6]
    simpa using ht
  unfold clusters
  split_ifs with h1
  · have hu : E.uniqueBoreholes = [List.range E.N] := by
      unfold uniqueBoreholes
      obtain ⟨m, hm⟩ : ∃ m, E.N = m + 1 := ⟨E.N - 1, by omega⟩
      rw [hm, List.range_succ_eq_map, List.foldl_cons]
      have e : addSelf (fun i m => cmpDims E.tol (E.bore i) (E.bore m)) [] 0 = [[0]] := rfl
      rw [e, addSelf_single]
      · simp
      · intro i hi
        obtain ⟨j, hj, rfl⟩ := List.mem_map.mp hi
        have := List.mem_range.mp hj
        exact hdims _ (by omega)
    rw [hu, List.foldl_cons, List.foldl_nil]
    unfold clusterStep
    rw [if_pos (by simpa using h1), hcut]
    rfl
  · show E.N = 1
    omega

/-! ### A concrete case: three boreholes in a row -/

theorem eqRow3_spaced : Gf.Spaced (3 / 40) (bores (eqRow3.field 12)) := by
  rw [spaced_iff]
  intro k hk l hl hkl
  show _ ≤ ((5 : ℝ) * k - 5 * l) ^ 2 + (0 - 0) ^ 2
  have h : (1 : ℝ) ≤ ((k : ℝ) - l) ^ 2 := by
    have h0 : (k : ℤ) - l ≠ 0 := by omega
    have h1 : (1 : ℤ) ≤ ((k : ℤ) - l) ^ 2 := Int.add_one_le_iff.mpr (sq_pos_iff.mpr h0)
    exact_mod_cast h1
  nlinarith

theorem eqRow3_distances : ∃ dis wDis, UniqueDistance eqRow3.disTol eqRow3.allDistances dis wDis := by
  obtain ⟨dis, wDis, -, hu, -⟩ := unique_distance_groups eqRow3.disTol (by norm_num [eqRow3]) eqRow3.allDistances (by
    intro x hx
    obtain ⟨k, hk, l, hl, rfl⟩ := (eqRow3.mem_allDistances eqRow3_uniform.toIdentical).mp hx
    exact lt_of_lt_of_le (by norm_num [eqRow3, Sim.row3]) (le_max_left _ _))
  exact ⟨dis, wDis, hu⟩

/-- Non-vacuity: the three boreholes in a row, whose middle borehole differs from the others. -/
example : ∃ dis wDis es g Qs g' Qs' g'', UniqueDistance eqRow3.disTol eqRow3.allDistances dis wDis ∧ eqRow3.equivalents = some es ∧
    temperatureDetailed (fun t _ s r => fls t (1 / 10 ^ 6) (pairOf s r) true true) (bores (eqRow3.field 12)) (counts (eqRow3.field 12)) (ratios (eqRow3.field 12)) [10 ^ 6, 10 ^ 9] 3600 = some (g, Qs) ∧
    temperatureEquivalent (fun t => EqSol.flsE t (1 / 10 ^ 6)) (fun t p => fls t (1 / 10 ^ 6) p true true) (eqRow3.solver es dis 12 (uniformRatios 12)) (12 * es.length) [10 ^ 6, 10 ^ 9] 3600 =
      some (g', Qs') ∧
    uniformDetailed (fun t _ s r => fls t (1 / 10 ^ 6) (pairOf s r) true true) (bores (eqRow3.field 12)) (counts (eqRow3.field 12)) (ratios (eqRow3.field 12)) [10 ^ 6, 10 ^ 9] 3600 = some g'' ∧
    ∃ v v' v'', g[0]? = some v ∧ g'[0]? = some v' ∧ g''[0]? = some v'' ∧ 0 < v ∧ v ≤ v' ∧ v' ≤ v'' := by
  obtain ⟨dis, wDis, hu⟩ := eqRow3_distances
  obtain ⟨es, g, Qs, g', Qs', g'', h1, -, h2, h3, h4, -, -, -, h⟩ := equivalent_between (alpha := 1 / 10 ^ 6) (K := fun t _ s r => fls t (1 / 10 ^ 6) (pairOf s r) true true) (by norm_num)
    (fun _ _ _ => rfl) twoClusters_ok eqRow3_uniform eqRow3_spaced hu (time := [10 ^ 6, 10 ^ 9]) (by norm_num) (by norm_num) (thr := 3600) (by norm_num)
  exact ⟨dis, wDis, es, g, Qs, g', Qs', g'', hu, h1, h2, h3, h4, h 0 (10 ^ 6) rfl (Or.inl rfl)⟩

/-- Non-vacuity: the same boreholes in groups, and in one group. -/
example : ∃ dis wDis es g Qs es' g' Qs', UniqueDistance eqRow3.disTol eqRow3.allDistances dis wDis ∧ eqRow3.equivalents = some es ∧ EqIn.equivalents { eqRow3 with cut := oneCluster } = some es' ∧
    temperatureEquivalent (fun t => EqSol.flsE t (1 / 10 ^ 6)) (fun t p => fls t (1 / 10 ^ 6) p true true) (eqRow3.solver es dis 12 (uniformRatios 12)) (12 * es.length) [10 ^ 6, 10 ^ 9] 3600 =
      some (g, Qs) ∧
    temperatureEquivalent (fun t => EqSol.flsE t (1 / 10 ^ 6)) (fun t p => fls t (1 / 10 ^ 6) p true true) (EqIn.solver { eqRow3 with cut := oneCluster } es' dis 12 (uniformRatios 12)) (12 * es'.length)
      [10 ^ 6, 10 ^ 9] 3600 = some (g', Qs') ∧ ∃ v v', g[0]? = some v ∧ g'[0]? = some v' ∧ 0 < v ∧ v ≤ v' := by
  obtain ⟨dis, wDis, hu⟩ := eqRow3_distances
  obtain ⟨es, g, Qs, es', g', Qs', h1, h2, -, h3, h4, -, -, h⟩ := equivalent_finer (E := eqRow3) (cut' := oneCluster) (alpha := 1 / 10 ^ 6) (by norm_num) twoClusters_ok oneCluster_ok
    (fun k hk l hl _ => by
      rw [identical_one (E := { eqRow3 with cut := oneCluster }) (n := 12) (H := 150) (D := 4) (rb := 3 / 40) eqRow3_uniform.toIdentical rfl hk,
        identical_one (E := { eqRow3 with cut := oneCluster }) (n := 12) (H := 150) (D := 4) (rb := 3 / 40) eqRow3_uniform.toIdentical rfl hl])
    eqRow3_uniform eqRow3_spaced hu (time := [10 ^ 6, 10 ^ 9]) (by norm_num) (by norm_num) (thr := 3600) (by norm_num)
  exact ⟨dis, wDis, es, g, Qs, es', g', Qs', hu, h1, h2, h3, h4, h 0 (10 ^ 6) rfl (Or.inl rfl)⟩

end Verif.Gf
