import Verif.Gf.EqBoundProps
import Verif.Gf.SimStableProps

/-!
# The g-function with a uniform temperature of the `equivalent` solver when distances are merged
-/

noncomputable section

namespace Verif.Gf

open Bore FLS Sol Finset EqIn

variable {E : EqIn} {H D rb alpha : ℝ} {n : ℕ}

/-- Sum of the errors of the response factors of a row, from merging distances. -/
theorem equivalent_rows (ha : 0 < alpha) (hc : CutOk E.cut) (hU : (E.field n).Identical H D rb n) (hA : E.Spaced rb) (htol : E.disTol < 1) {dis : List ℝ} {wDis : List ℕ}
    (hu : UniqueDistance E.disTol E.allDistances dis wDis) {es : List EqBore} (hes : E.equivalents = some es) {t : ℝ} (ht : 0 < t) :
    ∃ M, (E.solver es dis n (uniformRatios n)).factors (EqSol.flsE t alpha) (fun p => fls t alpha p true true) = some M ∧
      ∀ c : Fin (n * es.length), ∑ d : Fin (n * es.length), |M c d - (E.solver es dis n (uniformRatios n)).clusterMean t alpha (d.val / n) (c.val / n) (d.val % n) (c.val % n)| ≤
        (E.N - 1) * (2 * Real.log (1 / (1 - E.disTol))) := by
  obtain ⟨es', hes', hlen, hget⟩ := E.uniform_equivalents hc hU
  obtain rfl := Option.some.inj (hes.symm.trans hes')
  have hn0 : 0 < n := hU.pos.2.2.2
  have hX := E.uniform_similar hc hU hA hu hes
  have hV := solver_divided E hc hU dis hes
  have hnear : ∀ i < es.length, ∀ j < es.length, ∀ x ∈ (E.solver es dis n (uniformRatios n)).between i j, 0 < x ∧ |x - rep dis.tail x| ≤ E.disTol * x :=
    fun i hi j hj x hx => (E.uniform_near hc hU hA hu hes hi hj hx).2
  have hpos : ∀ i < es.length, ((E.solver es dis n (uniformRatios n)).eb i).pos.length = (E.cluster i).length := fun i hi => by
    have : (E.solver es dis n (uniformRatios n)).eb i = ⟨H, D, rb, (E.cluster i).map fun k => ((E.bore k).x, (E.bore k).y)⟩ := hget i (by omega)
    rw [this, List.length_map]
  obtain ⟨M, hM, h⟩ := (E.solver es dis n (uniformRatios n)).equivalent_near hX t alpha
  obtain ⟨V, hVdef⟩ : ∃ V, V = E.solver es dis n (uniformRatios n) := ⟨_, rfl⟩
  have hVn : V.n = es.length := by rw [hVdef]; rfl
  have hVns : V.ns = n := by rw [hVdef]; rfl
  have hVdis : V.dis = dis.tail := by rw [hVdef]; rfl
  have hf1 : ∀ k, V.sim.first k = n * k := fun k => by rw [hVdef]; exact solver_first E es dis n _ k
  rw [← hVdef] at hX hV hnear hpos h hM ⊢
  refine ⟨M, hM, fun c => ?_⟩
  obtain ⟨j, hj⟩ : ∃ j, j = c.val / n := ⟨_, rfl⟩
  obtain ⟨b, hb⟩ : ∃ b, b = c.val % n := ⟨_, rfl⟩
  have hjl : j < es.length := hj ▸ Nat.div_lt_of_lt_mul c.isLt
  have hbn : b < n := hb ▸ Nat.mod_lt _ hn0
  have hcv : c.val = b + n * j := by rw [hb, hj]; exact (Nat.mod_add_div _ _).symm
  rw [← hj, ← hb]
  -- the sum over the segments of a group
  have hsj : (0 : ℝ) < (V.eb j).pos.length := by exact_mod_cast List.length_pos_iff.mpr (hX.size j (hVn ▸ hjl))
  have hlog : 0 ≤ 2 * Real.log (1 / (1 - E.disTol)) := by
    have : (1 : ℝ) ≤ 1 / (1 - E.disTol) := by
      rw [le_div_iff₀ (by linarith)]
      linarith [show (0 : ℝ) < E.disTol from hU.disTol]
    have := Real.log_nonneg this
    linarith
  have hgroup : ∀ i < es.length, ∑ a ∈ range n, |M c.val (a + n * i) - V.clusterMean t alpha i j a b| ≤ ((V.eb i).pos.length - if i = j then 1 else 0) * (2 * Real.log (1 / (1 - E.disTol))) := fun i hi => by
    have e : ∀ a ∈ range n, |M c.val (a + n * i) - V.clusterMean t alpha i j a b| ≤
        ((V.between i j).map fun d => |V.resp t alpha i j a b (rep V.dis d) - V.resp t alpha i j a b d|).sum / (V.eb j).pos.length := fun a hai => by
      have hai := Finset.mem_range.mp hai
      have h3 := h i (hVn ▸ hi) j (hVn ▸ hjl) a (hVns ▸ hai) b (hVns ▸ hbn)
      rw [hf1, hf1, ← hcv] at h3
      rw [h3, V.clusterMean_eq hX t alpha (hVn ▸ hi) (hVn ▸ hjl), add_sub_add_right_eq_sub, ← sub_div, abs_div, abs_of_pos hsj]
      gcongr
      exact abs_sum_sub_le _ fun d _ => le_refl _
    refine (Finset.sum_le_sum e).trans ?_
    rw [← Finset.sum_div, div_le_iff₀ hsj]
    have hswap : ∑ a ∈ range n, ((V.between i j).map fun d => |V.resp t alpha i j a b (rep V.dis d) - V.resp t alpha i j a b d|).sum =
        ((V.between i j).map fun d => ∑ a ∈ range n, |V.resp t alpha i j a b (rep V.dis d) - V.resp t alpha i j a b d|).sum := by
      generalize V.between i j = l
      induction l with
      | nil => simp
      | cons d l ih => simp only [List.map_cons, List.sum_cons, Finset.sum_add_distrib, ih]
    rw [hswap]
    have hone : ∀ d ∈ V.between i j, ∑ a ∈ range n, |V.resp t alpha i j a b (rep V.dis d) - V.resp t alpha i j a b d| ≤ 2 * Real.log (1 / (1 - E.disTol)) := fun d hd => by
      obtain ⟨d1, d2⟩ := hnear i hi j hjl d hd
      have := sources_close_abs (S := V.sim) hV ha ht (k := i) (by show i < V.n; omega) d1 hU.disTol.le htol (seg_H_pos hV (k := j) (a := b) (by show j < V.n; omega) (by show b < V.ns; omega))
        (seg_D_nonneg hV (k := j) (a := b) (by show j < V.n; omega) (by show b < V.ns; omega)) (d := fun _ => rep V.dis d) fun a _ => by rw [hVdis, abs_sub_comm]; exact d2
      have e : V.sim.ns i = n := hVns
      rw [e] at this
      exact this
    refine (List.sum_le_card_nsmul _ (2 * Real.log (1 / (1 - E.disTol))) (by
      intro x hx
      obtain ⟨d, hd, rfl⟩ := List.mem_map.mp hx
      exact hone d hd)).trans_eq ?_
    rw [List.length_map, nsmul_eq_mul, V.between_length i j]
    ring
  have hsum : ∑ d : Fin (n * es.length), |M c d - V.clusterMean t alpha (d.val / n) j (d.val % n) b| = ∑ i ∈ range es.length, ∑ a ∈ range n, |M c.val (a + n * i) - V.clusterMean t alpha i j a b| := by
    rw [Fin.sum_univ_eq_sum_range (fun d => |M c d - V.clusterMean t alpha (d / n) j (d % n) b|) (n * es.length)]
    suffices ∀ m, ∑ d ∈ range (n * m), |M c.val d - V.clusterMean t alpha (d / n) j (d % n) b| = ∑ i ∈ range m, ∑ a ∈ range n, |M c.val (a + n * i) - V.clusterMean t alpha i j a b| from this _
    intro m
    induction m with
    | zero => simp
    | succ m ih =>
      rw [Nat.mul_succ, Finset.sum_range_add, ih, Finset.sum_range_succ]
      congr 1
      refine Finset.sum_congr rfl fun a ha => ?_
      have ha := Finset.mem_range.mp ha
      rw [Nat.mul_add_div hn0, Nat.div_eq_of_lt ha, add_zero, Nat.mul_add_mod, Nat.mod_eq_of_lt ha, add_comm]
  rw [hsum]
  refine (Finset.sum_le_sum fun i hi => hgroup i (Finset.mem_range.mp hi)).trans_eq ?_
  rw [← Finset.sum_mul]
  congr 1
  have e1 : ∑ i ∈ range es.length, (((V.eb i).pos.length : ℝ) - if i = j then 1 else 0) = ∑ i ∈ range es.length, ((E.cluster i).length : ℝ) - 1 := by
    rw [Finset.sum_sub_distrib, Finset.sum_ite_eq' (range es.length) j fun _ => (1 : ℝ), if_pos (Finset.mem_range.mpr hjl), Finset.sum_congr rfl fun i hi => by rw [hpos i (Finset.mem_range.mp hi)]]
  rw [e1, hlen]
  have e2 : ∑ i ∈ range E.clusters.2, (E.cluster i).length = E.N := by
    have := (E.cluster_perm hc).length_eq
    rw [List.length_flatten, List.map_map, List.length_range] at this
    rw [← this, Finset.sum_range, ← List.sum_ofFn]
    congr 1
    apply List.ext_getElem <;> simp
  have e3 : ∑ i ∈ range E.clusters.2, ((E.cluster i).length : ℝ) = E.N := by exact_mod_cast e2
  rw [e3]

/-- The rates of a system whose responses are changed, in the unchanged system: its energy and its mean response. -/
theorem changed_rows {n : ℕ} {H Q : Fin n → ℝ} {F G : Fin n → Fin n → ℝ} {C T q : ℝ} (hH : ∀ i, 0 < H i) (hrow : ∀ i, ∑ j, |G i j - F i j| ≤ C) (hT : ∀ i, T = ∑ j, G i j * Q j)
    (hq : ∀ j, |Q j| ≤ q) (hq0 : 0 ≤ q) (R : Fin n → ℝ) : |∑ i, H i * R i * ∑ j, F i j * Q j - T * ∑ i, H i * R i| ≤ C * q * ∑ i, H i * |R i| := by
  have herr : ∀ i, |∑ j, F i j * Q j - T| ≤ C * q := fun i => by
    rw [hT i, ← Finset.sum_sub_distrib]
    calc |∑ j, (F i j * Q j - G i j * Q j)| ≤ ∑ j, |G i j - F i j| * q := by
          refine (Finset.abs_sum_le_sum_abs _ _).trans (Finset.sum_le_sum fun j _ => ?_)
          rw [← sub_mul, abs_mul, abs_sub_comm]
          exact mul_le_mul_of_nonneg_left (hq j) (abs_nonneg _)
      _ = (∑ j, |G i j - F i j|) * q := by rw [Finset.sum_mul]
      _ ≤ C * q := mul_le_mul_of_nonneg_right (hrow i) hq0
  have e : ∑ i, H i * R i * ∑ j, F i j * Q j - T * ∑ i, H i * R i = ∑ i, H i * R i * (∑ j, F i j * Q j - T) := by
    rw [Finset.mul_sum, ← Finset.sum_sub_distrib]
    exact Finset.sum_congr rfl fun i _ => by ring
  rw [e, Finset.mul_sum]
  refine (Finset.abs_sum_le_sum_abs _ _).trans (Finset.sum_le_sum fun i _ => ?_)
  rw [abs_mul, abs_mul, abs_of_pos (hH i)]
  exact (mul_le_mul_of_nonneg_left (herr i) (mul_nonneg (hH i).le (abs_nonneg _))).trans_eq (by ring)

theorem spaced_merged (hU : (E.field n).Identical H D rb n) (hsp : Gf.Spaced rb (bores (E.field n))) (htol : E.disTol < 1) : E.Spaced rb := by
  intro k hk l hl hkl
  have h := (spaced_iff _ _).mp hsp k hk l hl hkl
  have hrb : 0 < rb := hU.pos.2.2.1
  have hd : √((10 * rb) ^ 2) ≤ (E.bore k).distance (E.bore l) := by
    refine (Real.sqrt_le_sqrt h).trans ?_
    exact le_max_right _ _
  rw [Real.sqrt_sq (by linarith)] at hd
  nlinarith

/-- **C152.**  Identical vertical boreholes with spacings of at least ten radii, grouped in any way and with distances merged within `disTol`: when the `equivalent` solver returns a g-function for a uniform
temperature, its first value (and those under the threshold) are not below those of the `detailed` solver for a uniform temperature, nor above those for a uniform heat extraction rate, by more than
`-2 log (1 - disTol)` for every other borehole times the largest of the heat extraction rates `Q'` that it returns (three times this, above). -/
theorem equivalent_merged (ha : 0 < alpha) {K : ℝ → Bool → Borehole → Borehole → ℝ} (hK : ∀ t s r, K t true s r = fls t alpha (pairOf s r) true true) (hc : CutOk E.cut)
    (hU : (E.field n).Identical H D rb n) (hsp : Gf.Spaced rb (bores (E.field n))) (htol : E.disTol < 1) {dis : List ℝ} {wDis : List ℕ} (hu : UniqueDistance E.disTol E.allDistances dis wDis)
    {es : List EqBore} (hes : E.equivalents = some es) {time : List ℝ} (hpos : ∀ t ∈ time, 0 < t) (hs : time.Pairwise (· < ·)) {thr : ℝ} (hthr : 0 < thr) {g' : List ℝ}
    {Qs' : List (Fin (n * es.length) → ℝ)}
    (hout : temperatureEquivalent (fun t => EqSol.flsE t alpha) (fun t p => fls t alpha p true true) (E.solver es dis n (uniformRatios n)) (n * es.length) time thr = some (g', Qs')) :
    ∃ g Qs g'', temperatureDetailed K (bores (E.field n)) (counts (E.field n)) (ratios (E.field n)) time thr = some (g, Qs) ∧
      uniformDetailed K (bores (E.field n)) (counts (E.field n)) (ratios (E.field n)) time thr = some g'' ∧
      ∀ (k : ℕ) (t : ℝ), time[k]? = some t → k = 0 ∨ t ≤ thr → ∃ (v v' v'' : ℝ) (Q' : Fin (n * es.length) → ℝ), g[k]? = some v ∧ g'[k]? = some v' ∧ g''[k]? = some v'' ∧
        Qs'[k]? = some (fun i => if t ≤ thr then 1 + (Q' i - 1) * t / thr else Q' i) ∧ v ≤ v'' ∧
        ∀ q, (∀ j, |Q' j| ≤ q) →
          (v ≤ v' + underThreshold t thr * ((E.N - 1) * (2 * Real.log (1 / (1 - E.disTol)))) * q ^ 2 ∧
            v' ≤ v'' + underThreshold t thr * ((E.N - 1) * (2 * Real.log (1 / (1 - E.disTol)))) * (q ^ 2 + 2 * q)) ∧
          ((∀ j, 0 ≤ Q' j) → v ≤ v' + underThreshold t thr * ((E.N - 1) * (2 * Real.log (1 / (1 - E.disTol)))) * q ∧
            v' ≤ v'' + underThreshold t thr * ((E.N - 1) * (2 * Real.log (1 / (1 - E.disTol)))) * (3 * q)) := by
  have hf := identical_fit hU
  have hA := spaced_merged hU hsp htol
  obtain ⟨es', hes', hlen, -⟩ := E.uniform_equivalents hc hU
  obtain rfl := Option.some.inj (hes.symm.trans hes')
  obtain ⟨π, hπ⟩ := segMap_exists (S := E.field n) (S' := (E.solver es dis n (uniformRatios n)).sim) (γ := label E) (n' := n * es.length) (segments_count _ hf.len)
    (solver_first E es dis n _ es.length).symm (fun k hk => by show label E k < es.length; rw [hlen]; exact label_lt E hc hk) fun k _ => rfl
  obtain ⟨hG, hH, hsurj, hHpos⟩ := cluster_averaged hc hU dis hes alpha hπ
  obtain ⟨⟨g, Qs⟩, h1⟩ := temperature_returns ha hK hf.upright hf.splits hsp hpos hs hthr
  obtain ⟨-, -, -, g'', h3, hb⟩ := temperature_first ha hK hf.upright hf.splits hsp hpos hs hthr h1
  have hsle := hs.imp fun {a b : ℝ} (h : a < b) => h.le
  obtain ⟨w, hw, -, hv⟩ := uniform_field hK hf.upright hf.splits hsle thr
  obtain rfl := Option.some.inj (h3.symm.trans hw)
  refine ⟨g, Qs, g'', h1, h3, fun k t hk hkt => ?_⟩
  have ht := hpos t (List.mem_of_getElem? hk)
  obtain ⟨T, Q, e1, e2, e3⟩ := first_value hK hf.upright hf.splits hpos hs hthr h1 hk hkt
  have hout2 := hout
  unfold temperatureEquivalent temperatureOf at hout2
  split_ifs at hout2 with hsome
  obtain ⟨T', Q', e1', e4', e2', e3'⟩ := ubwt_first_value (F := fun i j t => (((E.solver es dis n (uniformRatios n)).factors (EqSol.flsE t alpha) fun p => fls t alpha p true true).getD fun _ _ => 0) i j)
    (fun _ _ _ => rfl) hpos hs hthr hout2 hk hkt
  obtain ⟨τ, hτ⟩ : ∃ τ, τ = if t ≤ thr then thr else t := ⟨_, rfl⟩
  have hτ0 : 0 < τ := by rw [hτ]; split_ifs <;> assumption
  rw [← hτ] at e2 e2'
  obtain ⟨M, hM, hrow⟩ := equivalent_rows ha hc hU hA htol hu hes hτ0
  rw [hM, Option.getD_some] at e2'
  obtain ⟨C, hC⟩ : ∃ C, C = (E.N - 1) * (2 * Real.log (1 / (1 - E.disTol))) := ⟨_, rfl⟩
  rw [← hC] at hrow ⊢
  have hdef : Definite (segmentLengths (bores (E.field n)) (counts (E.field n)) (ratios (E.field n)))
      (fun i k => segmentResponse alpha (bores (E.field n)) (counts (E.field n)) (ratios (E.field n)) i k τ) := responses_definite ha hf.upright hf.splits hsp hτ0
  have hsym := segment_reciprocity (alpha := alpha) hf.upright hf.splits τ
  have hGτ := hG τ
  obtain ⟨F', hF'⟩ : ∃ F' : Fin (n * es.length) → Fin (n * es.length) → ℝ,
      F' = fun c d => (E.solver es dis n (uniformRatios n)).clusterMean τ alpha (d.val / n) (c.val / n) (d.val % n) (c.val % n) := ⟨_, rfl⟩
  obtain ⟨H', hH'⟩ : ∃ H' : Fin (n * es.length) → ℝ, H' = fun c => (lengthsEq (E.solver es dis n (uniformRatios n))).getD c.val 0 := ⟨_, rfl⟩
  have hrow' : ∀ c : Fin (n * es.length), ∑ d : Fin (n * es.length), |M c d - F' c d| ≤ C := fun c => by rw [hF']; exact hrow c
  rw [← hF', ← hH'] at hGτ
  have hHpos' : ∀ c, 0 < H' c := fun c => by rw [hH']; exact hHpos c
  have hHs : ∀ c, ∑ k with π k = c, segmentLengths (bores (E.field n)) (counts (E.field n)) (ratios (E.field n)) k = H' c := fun c => by rw [hH']; exact hH c
  have e3'' : ∑ c, H' c * Q' c = ∑ c, H' c := by rw [hH']; exact e3'
  have hL : ∑ i, segmentLengths (bores (E.field n)) (counts (E.field n)) (ratios (E.field n)) i = ∑ c, H' c := by
    have := averaged_mean hHs fun _ => 1
    simpa only [mul_one] using this
  have hHp : ∀ i, 0 < segmentLengths (bores (E.field n)) (counts (E.field n)) (ratios (E.field n)) i := fun i => (segment_upright hf.upright hf.splits (List.getElem_mem i.isLt)).2.2
  have hW : 0 < ∑ i, segmentLengths (bores (E.field n)) (counts (E.field n)) (ratios (E.field n)) i :=
    Finset.sum_pos (fun i _ => hHp i) ⟨⟨0, segments_nonempty hf.upright hf.splits⟩, Finset.mem_univ _⟩
  have low : T * ∑ c, H' c ≤ ∑ c, H' c * Q' c * ∑ d, F' c d * Q' d := by
    have h := energy_least hdef hsym e2 (P := fun i => Q' (π i)) (by rw [averaged_mean hHs Q', e3'', e3, hL])
    rw [e3, hL] at h
    exact h.trans_eq (averaged_energy hGτ Q').symm
  have up : 2 * ∑ c, H' c * 1 * ∑ d, F' c d * Q' d ≤ ∑ c, H' c * Q' c * ∑ d, F' c d * Q' d + fieldResponse alpha (bores (E.field n)) τ * ∑ c, H' c := by
    have hd' := averaged_definite hsurj hGτ hdef
    have hs' := averaged_symm hGτ hsym
    have h0 : 0 ≤ ∑ c, H' c * (Q' c - 1) * ∑ d, F' c d * (Q' d - 1) := by
      by_cases hd : (fun c => Q' c - 1) = 0
      · have : ∀ c, Q' c - 1 = 0 := fun c => congrFun hd c
        simp [this]
      · exact (hd' _ hd).le
    have e5 : ∑ c, H' c * Q' c * ∑ d, F' c d = ∑ c, H' c * 1 * ∑ d, F' c d * Q' d := by
      simp only [Finset.mul_sum]
      rw [Finset.sum_comm]
      refine Finset.sum_congr rfl fun d _ => Finset.sum_congr rfl fun c _ => ?_
      have := hs' c d
      linear_combination Q' c * this
    have e6 : ∑ c, H' c * ∑ d, F' c d = fieldResponse alpha (bores (E.field n)) τ * ∑ c, H' c := by
      have e := averaged_energy hGτ fun _ => 1
      simp only [mul_one] at e
      rw [e, segments_mean (alpha := alpha) hf.upright hf.splits τ, ← hL]
    have e7 : ∑ c, H' c * (Q' c - 1) * ∑ d, F' c d * (Q' d - 1) =
        ∑ c, H' c * Q' c * ∑ d, F' c d * Q' d - ∑ c, H' c * Q' c * ∑ d, F' c d - ∑ c, H' c * 1 * ∑ d, F' c d * Q' d + ∑ c, H' c * ∑ d, F' c d := by
      rw [← Finset.sum_sub_distrib, ← Finset.sum_sub_distrib, ← Finset.sum_add_distrib]
      refine Finset.sum_congr rfl fun c _ => ?_
      simp only [mul_sub, mul_one, Finset.sum_sub_distrib]
      ring
    rw [e7, e5, e6] at h0
    linarith
  obtain ⟨v, w, b1, b1', b2, b3⟩ := hb k t hk hkt
  obtain rfl := Option.some.inj (b1.symm.trans e1)
  obtain rfl := Option.some.inj (b1'.symm.trans (hv k t hk))
  refine ⟨_, _, _, Q', b1, e1', b1', e4', b3, fun q hq => ?_⟩
  have hn' : 0 < n * es.length := Fin.pos (π ⟨0, segments_nonempty hf.upright hf.splits⟩)
  have hq0 : 0 ≤ q := (abs_nonneg _).trans (hq ⟨0, hn'⟩)
  have hut : 0 < underThreshold t thr := by unfold underThreshold; split_ifs <;> positivity
  have hval : ∀ x : ℝ, (if t ≤ thr then x * t / thr else x) = underThreshold t thr * x := fun x => by unfold underThreshold; split_ifs <;> ring
  have hfr : (if t ≤ thr then fieldResponse alpha (bores (E.field n)) thr * t / thr else fieldResponse alpha (bores (E.field n)) t) = underThreshold t thr * fieldResponse alpha (bores (E.field n)) τ := by
    rw [hτ]
    unfold underThreshold
    split_ifs <;> ring
  rw [hfr, hval, hval]
  have hL' : 0 < ∑ c, H' c := hL ▸ hW
  have r1 := changed_rows hHpos' hrow' e2' hq hq0 fun _ => 1
  have r2 := changed_rows hHpos' hrow' e2' hq hq0 Q'
  simp only [abs_one] at r1
  rw [e3''] at r2
  have main : ∀ m, ∑ c, H' c * |Q' c| ≤ m * ∑ c, H' c → T ≤ T' + C * q * m ∧ T' ≤ fieldResponse alpha (bores (E.field n)) τ + C * (q * m + 2 * q) := fun m hm => by
    have hC0 : 0 ≤ C := (Finset.sum_nonneg fun d _ => abs_nonneg _).trans (hrow' ⟨0, hn'⟩)
    have r3 := r2.trans (mul_le_mul_of_nonneg_left hm (mul_nonneg hC0 hq0))
    obtain ⟨a1, a2⟩ := abs_le.mp r3
    obtain ⟨b1, b2⟩ := abs_le.mp r1
    have e : ∑ c, H' c * 1 = ∑ c, H' c := by simp only [mul_one]
    rw [e] at b1 b2
    constructor
    · refine le_of_mul_le_mul_right ?_ hL'
      linarith
    · refine le_of_mul_le_mul_right ?_ hL'
      linarith
  constructor
  · obtain ⟨a1, a2⟩ := main q (by
      rw [Finset.mul_sum]
      exact Finset.sum_le_sum fun c _ => (mul_le_mul_of_nonneg_left (hq c) (hHpos' c).le).trans_eq (mul_comm _ _))
    have a1 := mul_le_mul_of_nonneg_left a1 hut.le
    have a2 := mul_le_mul_of_nonneg_left a2 hut.le
    constructor <;> linarith
  · intro hnn
    obtain ⟨a1, a2⟩ := main 1 (by
      rw [one_mul, ← e3'']
      exact Finset.sum_le_sum fun c _ => by rw [abs_of_nonneg (hnn c)])
    have a1 := mul_le_mul_of_nonneg_left a1 hut.le
    have a2 := mul_le_mul_of_nonneg_left a2 hut.le
    constructor <;> linarith

/-! ### A case with merged distances: one group with one segment -/

/-- With one group and one segment, the `equivalent` solver returns a g-function for a uniform temperature, whatever the distances merged. -/
theorem single_returns (ha : 0 < alpha) (hU : (E.field 1).Identical H D rb 1) (hcut : E.cut = oneCluster) (hA : E.Spaced rb) (htol : E.disTol < 1) {dis : List ℝ} {wDis : List ℕ}
    (hu : UniqueDistance E.disTol E.allDistances dis wDis) {time : List ℝ} (hpos : ∀ t ∈ time, 0 < t) (hs : time.Pairwise (· < ·)) {thr : ℝ} (hthr : 0 < thr) :
    ∃ es out, E.equivalents = some es ∧
      temperatureEquivalent (fun t => EqSol.flsE t alpha) (fun t p => fls t alpha p true true) (E.solver es dis 1 (uniformRatios 1)) (1 * es.length) time thr = some out := by
  have hc : CutOk E.cut := hcut ▸ oneCluster_ok
  have hf := identical_fit hU
  obtain ⟨es, hes, hlen, hget⟩ := E.uniform_equivalents hc hU
  have hV := solver_divided E hc hU dis hes
  have h1 : es.length = 1 := by
    rw [hlen]
    by_contra h
    have h0 : 0 < E.clusters.2 := (Nat.zero_le _).trans_lt (label_lt E hc hU.size)
    obtain ⟨k, hk, hk1⟩ := label_surj E hc (show 1 < E.clusters.2 by omega)
    rw [identical_one hU hcut hk] at hk1
    exact absurd hk1 (by norm_num)
  have hX := E.uniform_similar hc hU hA hu hes
  have hi := timeLong_increasing hpos hs hthr
  choose M hM h using (E.solver es dis 1 (uniformRatios 1)).equivalent_near hX
  have hmpos : ∀ t, 0 < t → 0 < M t alpha 0 0 := fun t ht => by
    have h2 := h t alpha 0 (by show 0 < es.length; omega) 0 (by show 0 < es.length; omega) 0 (by show 0 < 1; norm_num) 0 (by show 0 < 1; norm_num)
    have hr : ∀ d, 0 < d → 0 < (E.solver es dis 1 (uniformRatios 1)).resp t alpha 0 0 0 0 d := fun d hd => by
      have hH0 := seg_H_pos hV (k := 0) (a := 0) (by show 0 < es.length; omega) (by show 0 < 1; norm_num)
      have hD0 := seg_D_nonneg hV (k := 0) (a := 0) (by show 0 < es.length; omega) (by show 0 < 1; norm_num)
      exact ((positive_increasing ha (g := (E.solver es dis 1 (uniformRatios 1)).sim.geometry (0, 0) d (0, 0)) ⟨hd, hH0.le, hH0⟩ hH0 ht (lt_add_one t)).2.2.2 hD0 hD0).1
    rw [solver_first, mul_zero, zero_add, if_pos rfl] at h2
    rw [h2]
    refine add_pos_of_nonneg_of_pos (div_nonneg (List.sum_nonneg fun x hx => ?_) (Nat.cast_nonneg _)) (hr _ ?_)
    · obtain ⟨d, hd, rfl⟩ := List.mem_map.mp hx
      obtain ⟨d1, d2⟩ := (E.uniform_near hc hU hA hu hes (by omega) (by omega) hd).2
      refine (hr _ ?_).le
      have := (abs_le.mp d2).2
      show 0 < rep dis.tail d
      nlinarith
    · have : (E.solver es dis 1 (uniformRatios 1)).eb 0 = ⟨H, D, rb, (E.cluster 0).map fun k => ((E.bore k).x, (E.bore k).y)⟩ := hget 0 (by omega)
      rw [this]
      exact hU.pos.2.2.1
  have hdef : ∀ t ∈ timeLong time thr, Definite (fun c : Fin (1 * es.length) => (lengthsEq (E.solver es dis 1 (uniformRatios 1))).getD c 0) (fun i j => M t alpha i j) := fun t ht Q hQ => by
    have ht0 := increasing_gt hi t ht
    obtain ⟨π, hπ⟩ := segMap_exists (S := E.field 1) (S' := (E.solver es dis 1 (uniformRatios 1)).sim) (γ := label E) (n' := 1 * es.length) (segments_count _ hf.len)
      (solver_first E es dis 1 _ es.length).symm (fun k hk => by show label E k < es.length; rw [hlen]; exact label_lt E hc hk) fun k _ => rfl
    obtain ⟨-, -, -, hHpos⟩ := cluster_averaged hc hU dis hes alpha hπ
    have hz : ∀ c : Fin (1 * es.length), c.val = 0 := fun c => by have := c.isLt; omega
    obtain ⟨c, hc'⟩ := Function.ne_iff.mp hQ
    have hu : (univ : Finset (Fin (1 * es.length))) = {c} := Finset.eq_singleton_iff_unique_mem.mpr ⟨Finset.mem_univ _, fun d _ => Fin.ext ((hz d).trans (hz c).symm)⟩
    rw [hu, Finset.sum_singleton, Finset.sum_singleton]
    dsimp only
    rw [hz c]
    have e1 := hHpos c
    rw [hz c] at e1
    have e2 := hmpos t ht0
    have e3 : Q c ≠ 0 := hc'
    have : 0 < (lengthsEq (E.solver es dis 1 (uniformRatios 1))).getD 0 0 * M t alpha 0 0 * Q c ^ 2 := by positivity
    linarith
  obtain ⟨out, h2⟩ := ubwt_returns (H := fun c : Fin (1 * es.length) => (lengthsEq (E.solver es dis 1 (uniformRatios 1))).getD c 0) (by omega)
    (fun i j t => M t alpha i j) (resp := fun tl i j => tl.map fun t => (((E.solver es dis 1 (uniformRatios 1)).factors (EqSol.flsE t alpha) fun p => fls t alpha p true true).getD fun _ _ => 0) i j)
    (fun tl i j => List.map_congr_left fun t _ => by rw [hM t alpha]; rfl) hi fun m p hp hm => by
      have e : (fun (i j : Fin (1 * es.length)) => (timeLong time thr).map fun t => (((E.solver es dis 1 (uniformRatios 1)).factors (EqSol.flsE t alpha) fun p => fls t alpha p true true).getD fun _ _ => 0) i j)
          = fun i j => (timeLong time thr).map ((fun (i j : Fin (1 * es.length)) t => M t alpha i j) i j) := by
        funext i j
        exact List.map_congr_left fun t _ => by rw [hM t alpha]; rfl
      rw [e] at hm
      exact definite_step _ hi hdef hp hm
  refine ⟨es, out, hes, ?_⟩
  unfold temperatureEquivalent temperatureOf
  rw [if_pos fun t _ => by beta_reduce; rw [hM t alpha]; rfl]
  exact h2

/-- The boreholes at 0, 5 and 10.02 m, two of whose three distances differ by less than the tolerance, in one group. -/
def eqBent : EqIn := ⟨3, bentRow.bore, 1 / 10 ^ 6, 1 / 100, oneCluster⟩

theorem eqBent_identical : (eqBent.field 1).Identical 100 4 (1 / 10) 1 := bentRow_identical

/-- Non-vacuity: three boreholes in one group, with merged distances. -/
example : ∃ dis wDis es g' Qs' g Qs g'' v v' v'' Q', UniqueDistance eqBent.disTol eqBent.allDistances dis wDis ∧ eqBent.equivalents = some es ∧
    temperatureEquivalent (fun t => EqSol.flsE t (1 / 10 ^ 6)) (fun t p => fls t (1 / 10 ^ 6) p true true) (eqBent.solver es dis 1 (uniformRatios 1)) (1 * es.length) [10 ^ 6] 1000 = some (g', Qs') ∧
    temperatureDetailed lineKernel (bores bentRow) (counts bentRow) (ratios bentRow) [10 ^ 6] 1000 = some (g, Qs) ∧
    uniformDetailed lineKernel (bores bentRow) (counts bentRow) (ratios bentRow) [10 ^ 6] 1000 = some g'' ∧ g[0]? = some v ∧ g'[0]? = some v' ∧ g''[0]? = some v'' ∧ Qs'[0]? = some Q' := by
  obtain ⟨dis, wDis, -, hu, -⟩ := unique_distance_groups eqBent.disTol (by norm_num [eqBent]) eqBent.allDistances (by
    intro x hx
    obtain ⟨k, hk, l, hl, rfl⟩ := (eqBent.mem_allDistances eqBent_identical).mp hx
    exact lt_of_lt_of_le (by norm_num [eqBent, bentRow]) (le_max_left _ _))
  obtain ⟨es, ⟨g', Qs'⟩, h1, h2⟩ := single_returns (E := eqBent) (alpha := 1 / 10 ^ 6) (by norm_num) eqBent_identical rfl
    (spaced_merged eqBent_identical bentRow_spaced (by norm_num [eqBent])) (by norm_num [eqBent]) hu (time := [10 ^ 6]) (by norm_num) (by simp) (thr := 1000) (by norm_num)
  obtain ⟨g, Qs, g'', h3, h4, h5⟩ := equivalent_merged (E := eqBent) (alpha := 1 / 10 ^ 6) (K := lineKernel) (by norm_num) (fun _ _ _ => rfl) oneCluster_ok eqBent_identical bentRow_spaced
    (by norm_num [eqBent]) hu h1 (by norm_num) (by simp) (by norm_num) h2
  obtain ⟨v, v', v'', Q', e1, e2, e3, e4, -⟩ := h5 0 (10 ^ 6) rfl (Or.inl rfl)
  exact ⟨dis, wDis, es, g', Qs', g, Qs, g'', v, v', v'', _, hu, h1, h2, h3, h4, e1, e2, e3, e4⟩

end Verif.Gf
