import Verif.Sol.OrderProps
import Verif.Gf.MirrorGfProps
import Verif.Gf.EqNetProps

/-!
# Property C144: boreholes in parallel with a mixed inlet temperature, against a uniform temperature of the walls
-/

noncomputable section

namespace Verif.Net

variable {n : ℕ} {t : Topology}

/-- The outlets of a network in parallel are mixed in proportion to their flow rates. -/
theorem parallel_aligned (h : construct n none = .ok t) (f : Formatted) : Aligned t f := by
  intro k o hk
  have hn : 0 < n := by
    obtain ⟨-, -, hv, -⟩ := construct_ok h
    exact hv.pos
  obtain ⟨-, hni, hin, -, ho⟩ := parallel_lists hn h
  rw [ho f] at hk
  obtain ⟨hlt, rfl⟩ : ∃ _ : k < n, k = o := by
    obtain ⟨h1, h2⟩ := List.getElem?_eq_some_iff.mp hk
    exact ⟨by simpa using h1, by simpa using h2⟩
  obtain ⟨-, -, -, -, -, -, hc⟩ := circuits_decompose _ _ t h
  obtain ⟨chain, -, hmem, -, ⟨a, ha, hia, -⟩, -⟩ := hc k (by omega)
  rw [hin] at hia
  have hak : k = a := by
    obtain ⟨h1, h2⟩ := List.getElem?_eq_some_iff.mp hia
    simpa using h2
  have := ((hmem a).mp (List.mem_of_head? ha)).2
  unfold mBore
  rw [← hak] at this
  rw [List.getD_eq_getElem?_getD (l := t.iCircuit), this, Option.getD_some]

end Verif.Net

namespace Verif.Pipe.UTube

/-- Equal legs, also for objects that do not reverse the flow. -/
theorem heat_symmetric_any {t : UTube} {n : ℕ} {zu : ℕ → ℝ} (hv : t.Valid) {m cp : ℝ} (hm : m ≠ 0) (hc : 0 < cp) (hz : Edges zu n t.H) (hd : 0 < m ∨ t.reversible = true)
    (hl : t.G 0 0 = t.G 1 1) (s s' : Fin n) : (t.netPipe zu n).heatB m cp s s' = (t.netPipe zu n).heatB m cp s' s := by
  rcases hd with h0 | hr
  · obtain ⟨u, hu⟩ : ∃ u : UTube, u = { t with reversible := true } := ⟨_, rfl⟩
    have huv : u.Valid := by rw [hu]; exact ⟨hv.H, hv.nonneg, hv.sum, hv.symm, hv.det⟩
    have e : ∀ a b, (t.netPipe zu n).heatB m cp a b = (u.netPipe zu n).heatB m cp a b := fun a b => by
      rw [hu]
      unfold netPipe heatB tempB par iInlet iOutlet isReversed
      simp [h0.not_gt]
    rw [e, e]
    exact heat_symmetric huv hm hc (by rw [hu]; exact hz) (by rw [hu]) (by rw [hu]; exact hl) s s'
  · exact heat_symmetric hv hm hc hz hr hl s s'

end Verif.Pipe.UTube

namespace Verif.Gf

open Bore Sol Net FLS

variable {bs : List Borehole} {ns : List ℕ} {rs : List (List ℝ)} {t : Topology}

/-- Specification: the pipes in the borehole `b` are a single U-tube with two equal legs. -/
def EvenTube (b : Borehole) (p : (r : List ℝ) → Net.Pipe r.length) (m : ℝ) : Prop :=
  ∃ t : Pipe.UTube, t.Valid ∧ 0 ≤ t.G 0 1 ∧ t.G 0 0 = t.G 1 1 ∧ t.H = b.H ∧ (0 < m ∨ t.reversible = true) ∧ ∀ r, p r = t.netPipe (edgesAt b r) r.length

theorem EvenTube.tube {b : Borehole} {p : (r : List ℝ) → Net.Pipe r.length} {m : ℝ} (h : EvenTube b p m) : TubeIn b p m := by
  obtain ⟨t, h1, h2, -, h3, h4, h5⟩ := h
  exact ⟨t, h1, h2, h3, h4, h5⟩

theorem EvenTube.symm {b : Borehole} {p : (r : List ℝ) → Net.Pipe r.length} {m cp : ℝ} (h : EvenTube b p m) (hm : m ≠ 0) (hcp : 0 < cp) (hH : 0 < b.H) {r : List ℝ}
    (hpos : ∀ ρ ∈ r, 0 < ρ) (hsum : r.sum = 1) (s s' : Fin r.length) : (p r).heatB m cp s s' = (p r).heatB m cp s' s := by
  obtain ⟨t, h1, -, h2, h3, h4, h5⟩ := h
  rw [h5 r]
  exact Pipe.UTube.heat_symmetric_any h1 hm hcp (by rw [h3]; exact edgesAt_edges hH hpos hsum) h4 h2 s s'

/-- Specification: the rates `P` per unit length, of mean one, are in the proportions of the heat that the network extracts from the segments when all walls have the same temperature. -/
structure WallRates (t : Topology) (f : Formatted) {N : ℕ} {cs : Fin N → ℕ} (p : (i : Fin N) → Net.Pipe (cs i)) {M : ℕ} (hM : ∑ i, cs i = M) (H P : Fin M → ℝ) : Prop where
  mean : MeanOne H P
  walls : ∃ ki Tin c, netInlet t p f = some ki ∧ c ≠ 0 ∧ ∀ s, (boreHeat t p f ki).eval Tin (fun _ => 0) s = c * (H (segPlace hM s) * P (segPlace hM s))

/-- **C144**.  Boreholes in parallel, each a single U-tube with two equal legs.  The first value of the g-function with a mixed inlet temperature, and the values under the threshold, are not
less than those with a uniform temperature of the walls, and not more than the mean temperature drop, weighted by the rates, for the rates extracted from uniform walls. -/
theorem mixed_order {alpha rb : ℝ} (ha : 0 < alpha) {K : ℝ → Bool → Borehole → Borehole → ℝ} (hK : ∀ t s r, K t true s r = fls t alpha (pairOf s r) true true) (hU : Upright rb bs)
    (h : Splits bs ns rs) (hsp : Spaced rb bs) (ht : construct bs.length none = .ok t) {pipe : Fin bs.length → (r : List ℝ) → Net.Pipe r.length} {ks : ℝ} (hks : 0 < ks)
    {m : List ℝ} {cp : ℝ} (hcp : 0 < cp) {f : Formatted} (hf : format t m [cp] = .ok f) (hflow : ∀ i : Fin bs.length, mBore t f i ≠ 0)
    (hp : ∀ i : Fin bs.length, EvenTube bs[i] (pipe i) (mBore t f i)) {time : List ℝ} (hpos : ∀ t ∈ time, 0 < t) (hs : time.Pairwise (· < ·)) {thr : ℝ} (hthr : 0 < thr) :
    ∃ g Qs Ts g' Qs' P, mixedNetwork K bs ns rs none pipe ks m cp time thr = some (g, Qs, Ts) ∧ temperatureDetailed K bs ns rs time thr = some (g', Qs') ∧
      WallRates t f (fun i => pipe i (rs.getD i [])) (segments_total h.consistent) (segmentLengths bs ns rs) P ∧
      ∀ (k : ℕ) (τ : ℝ), time[k]? = some τ → k = 0 ∨ τ ≤ thr → ∃ v v', g[k]? = some v ∧ g'[k]? = some v' ∧ v' ≤ v ∧
        v * ∑ i, segmentLengths bs ns rs i
          ≤ underThreshold τ thr * energy (segmentLengths bs ns rs) (fun i j => segmentResponse alpha bs ns rs i j (if τ ≤ thr then thr else τ)) P := by
  have hl : rs.length = bs.length := by rw [← h.consistent.segs, ← h.consistent.ratios, List.length_map]
  have hmem : ∀ i : Fin bs.length, rs.getD i [] ∈ rs := fun i => by
    have hi : (i : ℕ) < rs.length := by have := i.isLt; omega
    rw [List.getD_eq_getElem _ _ hi]; exact List.getElem_mem _
  have hH : ∀ i : Fin bs.length, 0 < bs[i].H := fun i => hU.H _ (List.getElem_mem _)
  have hp' : ∀ i : Fin bs.length, UTubeIn bs[i] (pipe i) (mBore t f i) ∨ MultipleIn bs[i] (pipe i) (mBore t f i) cp := fun i => Or.inl (hp i).tube.tube
  have hpw := fun i : Fin bs.length => piped_weighted (hflow i) hcp (hH i) (Or.inl (hp i).tube) (h.pos _ (hmem i)) (h.sum _ (hmem i))
  have hth := fun i : Fin bs.length => piped_thermal (hflow i) hcp (hH i) (hp' i) (h.pos _ (hmem i)) (h.sum _ (hmem i))
  have hth1 := fun i : Fin bs.length => piped_thermal (r := [1]) (hflow i) hcp (hH i) (hp' i) (by simp) (by simp)
  obtain ⟨⟨g, Qs, Ts⟩, hr⟩ := tube_network_returns ha hK hU h hsp hpos hs hthr ht hks hcp hf hflow hp'
  obtain ⟨⟨g', Qs'⟩, hout⟩ := temperature_returns ha hK hU h hsp hpos hs hthr
  have hout2 := hout
  unfold temperatureDetailed at hout2
  rw [if_pos fun t _ => (detailed_value hK hU h t).1] at hout2
  obtain ⟨w, C, o, fl, ko, w0, w1, hC, hm, hko, ho, hheat, hCC, hmift, hstep, ki, mcp, R, hki, hfl⟩ :=
    step_average hU h ht hks hcp hf hflow hth (fun i => (hpw i).1) hth1 (fun i => (hpw i).2) hr
  obtain ⟨k1, ko', hk1, hko', -⟩ := network_temperatures ht (fun i => pipe i [1]) f
  rw [hko, Option.some.injEq] at hko'
  subst hko'
  have hfc := format_cp hf
  have hresp := mixed_response ht (fun i => pipe i [1]) f (fun i => by rw [hfc]; exact hth1 i) (format_ok hf).1 (by rintro h0; rw [h0, zero_mul] at hm; exact hm.false)
    (parallel_aligned ht f) hk1 hko
  rw [← ho, ← hCC k1 hk1, hfc] at hresp
  have hHpos : ∀ i, 0 < segmentLengths bs ns rs i := fun i => (segment_upright hU h (List.getElem_mem i.isLt)).2.2
  have hpas : Passive fl fun _ => 1 := by
    rw [hfl]
    exact netFlow_passive (segments_total h.consistent) ht _ f (fun i => by rw [hfc]; exact hth i) (by rw [hfc]; exact hcp) hflow hki _ _ _ _
  have htot : ∀ Tin (T : Fin (segmentList bs ns rs).length → ℝ), ∑ a, (fl.aIn a * Tin + ∑ b, fl.aB a b * T b) = C * (∑ i, w i * T i - Tin) := fun Tin T => by
    rw [hfl, netFlow_heat, hheat ki hki]
  have hS : Symmetric (segmentLengths bs ns rs) fl C := by
    refine ⟨fun a b => ?_, hpas.equilibrium, fun θ => ?_, ?_, hC, by rw [hfl]; rfl⟩
    · obtain ⟨-, h2, h3⟩ := parallel_heat ht (fun i => pipe i (rs.getD i [])) f hki
      rw [hfl]
      unfold netFlow
      dsimp only
      generalize (segPlace (segments_total h.consistent)).symm a = sa
      generalize (segPlace (segments_total h.consistent)).symm b = sb
      obtain ⟨i, u⟩ := sa
      obtain ⟨j, v⟩ := sb
      by_cases hij : i = j
      · subst hij
        rw [h2, h2, hfc]
        exact (hp i).symm (hflow i) hcp (hH i) (h.pos _ (hmem i)) (h.sum _ (hmem i)) u v
      · rw [h3 i j u v hij, h3 j i v u (Ne.symm hij)]
    · have := hpas.dissipative θ
      simpa only [one_mul] using this
    · have := htot 0 fun _ => 1
      simpa only [mul_zero, zero_add, mul_one, w1, sub_zero] using this
  have hP : WallRates t f (fun i => pipe i (rs.getD i [])) (segments_total h.consistent) (segmentLengths bs ns rs) (uniformRates (segmentLengths bs ns rs) fl C) := by
    have hW : 0 < ∑ i, segmentLengths bs ns rs i := Finset.sum_pos (fun i _ => hHpos i) ⟨⟨0, segments_nonempty hU h⟩, Finset.mem_univ _⟩
    have hmul : ∀ a, segmentLengths bs ns rs a * uniformRates (segmentLengths bs ns rs) fl C a = (∑ j, segmentLengths bs ns rs j) / C * ∑ b, fl.aB a b := fun a => by
      unfold uniformRates
      have := (hHpos a).ne'
      field_simp
    refine ⟨?_, ki, (∑ j, segmentLengths bs ns rs j) / C, -1, hki, by norm_num, fun s => ?_⟩
    · unfold MeanOne
      simp only [hmul, ← Finset.mul_sum, hS.total]
      have := hC.ne'
      field_simp
    · rw [hmul, show ∑ b, fl.aB (segPlace (segments_total h.consistent) s) b = -fl.aIn (segPlace (segments_total h.consistent) s) by
        linarith [hpas.equilibrium (segPlace (segments_total h.consistent) s)]]
      rw [hfl]
      unfold netFlow Coef.eval
      simp [Matrix.mulVec, dotProduct]
      ring
  refine ⟨g, Qs, Ts, g', Qs', uniformRates (segmentLengths bs ns rs) fl C, hr, hout, hP, fun k τ hk hkt => ?_⟩
  have hflks : fl.ks = ks := by rw [hfl]; rfl
  refine mift_order (segments_nonempty hU h) hHpos hS (by rw [hflks]; exact hks) (responses_sampled hK hU h) (fun t => segment_reciprocal hU h t) (fun t ht => responses_definite ha hU h hsp ht)
    hpos hs hthr (fun x hx => ?_) hmift hout2 hk hkt
  have hg := (hstep [] 0 x hx).mpr hresp
  obtain ⟨-, hbal, -⟩ := mift_balance hx (by rw [hflks]; exact hks.ne') (by rw [hS.lengths]; exact fun i => (hHpos i).ne') (fun _ => 1) (by rw [hS.lengths]; simp)
  simp only [one_mul] at hbal
  rw [htot, ← hg] at hbal
  linarith

end Verif.Gf
