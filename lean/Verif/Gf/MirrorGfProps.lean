import Verif.Sol.MirrorSolProps
import Verif.Sol.KindProps
import Verif.Pipe.MirrorProps
import Verif.Gf.NetworkExamples
import Verif.Gf.StableFieldProps

/-!
# Property C142: the g-function of a network and the direction of the flow
-/

noncomputable section

namespace Verif.Gf

open Bore Sol Net FLS

variable {bs : List Borehole} {ns : List ℕ} {rs : List (List ℝ)} {conn : Option (List ℤ)} {t : Topology}

/-- The flow of some borehole comes from a flow rate given to the network. -/
theorem flow_given {m : List ℝ} {cp : List ℝ} {f : Formatted} (hf : format t m cp = .ok f) {i : ℕ} (hi : mBore t f i ≠ 0) : ∃ a ∈ m, a ≠ 0 := by
  by_contra hc
  push Not at hc
  apply hi
  obtain ⟨-, -, -, h1, h2⟩ := format_ok hf
  have hall : ∀ a ∈ f.mIn, a = 0 := by
    by_cases hm : m.length = 1
    · obtain ⟨b, rfl⟩ := List.length_eq_one_iff.mp hm
      rw [h1 b rfl]
      intro a ha
      rw [List.eq_of_mem_replicate ha, hc b (by simp), zero_div]
    · rw [h2 hm]; exact hc
  unfold mBore
  rw [List.getD_eq_getElem?_getD]
  cases hx : f.mIn[t.iCircuit.getD i 0]? with
  | none => rfl
  | some a => exact hall a (List.mem_of_getElem? hx)

/-- Specification: the pipes in the borehole `b` take the fluid in both directions, `m` and `-m`: a single U-tube or coaxial borehole, or several U-tubes in parallel or in series. -/
def TwoWay (b : Borehole) (p : (r : List ℝ) → Net.Pipe r.length) (m cp : ℝ) : Prop :=
  (∃ t : Pipe.UTube, t.Valid ∧ t.H = b.H ∧ t.reversible = true ∧ ∀ r, p r = t.netPipe (edgesAt b r) r.length) ∨
  ∃ (k : ℕ) (c : Pipe.Multi.Config) (Rd : Matrix (Pipe.Multi.P k) (Pipe.Multi.P k) ℝ) (e e' : Pipe.Multi.Eig k),
    Pipe.Multi.Circuit Rd ∧ Pipe.Multi.Flowing k true m cp ∧ e.Of (Pipe.Multi.odeA Rd (Pipe.Multi.multiple c k true m cp).mcp) ∧
    e'.Of (Pipe.Multi.odeA Rd (Pipe.Multi.multiple c k true (-m) cp).mcp) ∧
    (∀ r, Pipe.Multi.Represents (Pipe.Multi.mkBore r.length (Pipe.Multi.multiple c k true m cp) Rd e (edgesAt b r) b.H) (edgesAt b r) (p r) m cp) ∧
    ∀ r, Pipe.Multi.Represents (Pipe.Multi.mkBore r.length (Pipe.Multi.multiple c k true (-m) cp) Rd e' (edgesAt b r) b.H) (edgesAt b r) (p r) (-m) cp

theorem TwoWay.piped {b : Borehole} {p : (r : List ℝ) → Net.Pipe r.length} {m cp : ℝ} (h : TwoWay b p m cp) :
    (UTubeIn b p m ∨ MultipleIn b p m cp) ∧ (UTubeIn b p (-m) ∨ MultipleIn b p (-m) cp) := by
  rcases h with ⟨t, hv, hH, hr, hp⟩ | ⟨k, c, Rd, e, e', hR, hf, he, he', hp, hp'⟩
  · exact ⟨Or.inl ⟨t, hv, hH, Or.inr hr, hp⟩, Or.inl ⟨t, hv, hH, Or.inr hr, hp⟩⟩
  · exact ⟨Or.inr ⟨k, c, true, Rd, e, hR, hf, he, hp⟩, Or.inr ⟨k, c, true, Rd, e', hR, ⟨hf.hn, neg_ne_zero.mpr hf.hm, hf.hcp, Or.inr rfl⟩, he', hp'⟩⟩

theorem TwoWay.mirrored {b : Borehole} {p : (r : List ℝ) → Net.Pipe r.length} {m cp : ℝ} (h : TwoWay b p m cp) (hm : m ≠ 0) (hcp : 0 < cp) (hH : 0 < b.H) {r : List ℝ}
    (hpos : ∀ ρ ∈ r, 0 < ρ) (hsum : r.sum = 1) : (p r).Mirrored m cp := by
  have hz := edgesAt_edges hH hpos hsum
  rcases h with ⟨t, hv, ht, hr, hp⟩ | ⟨k, c, Rd, e, e', hR, hf, he, he', hp, hp'⟩
  · rw [hp r]
    exact Pipe.UTube.netPipe_mirrored hv hm hcp (by rw [ht]; exact hz) hr
  · exact Pipe.Multi.multiple_mirrored hR hf he he' hH hz (hp r) (hp' r)

section

variable {alpha rb : ℝ} {K : ℝ → Bool → Borehole → Borehole → ℝ} (hU : Upright rb bs) (h : Splits bs ns rs) (ht : construct bs.length conn = .ok t)
  {pipe : Fin bs.length → (r : List ℝ) → Net.Pipe r.length} {ks : ℝ} {m : List ℝ} {cp : ℝ} (hcp : 0 < cp) {f : Formatted}
  (hf : format t m [cp] = .ok f) (hflow : ∀ i : Fin bs.length, mBore t f i ≠ 0) (hp : ∀ i : Fin bs.length, TwoWay bs[i] (pipe i) (mBore t f i) cp)

include hU h ht hcp hf hflow hp in
/-- The solvers of the two directions. -/
theorem flow_mirror {time : List ℝ} {thr : ℝ} {out out' : List ℝ × List (Fin (segmentList bs ns rs).length → ℝ) × (Fin (segmentList bs ns rs).length → List ℝ)}
    (hr : mixedNetwork K bs ns rs conn pipe ks m cp time thr = some out) (hr' : mixedNetwork K bs ns rs conn pipe ks (m.map fun a => -a) cp time thr = some out') :
    ∃ fl fl' : Flow (segmentList bs ns rs).length, Mirror (fun _ => 1) fl fl' ∧ fl.ks = ks ∧ fl.Hb = segmentLengths bs ns rs ∧
      fieldResistance t (fun i => pipe i [1]) f (bs.map Borehole.H).sum = some fl.R ∧ fieldResistance t (fun i => pipe i [1]) f.flip (bs.map Borehole.H).sum = some fl'.R ∧
      mift (segmentLengths bs ns rs) fl (responses K bs ns rs) time thr = some out ∧ mift (segmentLengths bs ns rs) fl' (responses K bs ns rs) time thr = some out' := by
  have hl : rs.length = bs.length := by rw [← h.consistent.segs, ← h.consistent.ratios, List.length_map]
  have hmem : ∀ i : Fin bs.length, rs.getD i [] ∈ rs := fun i => by
    have hi : (i : ℕ) < rs.length := by have := i.isLt; omega
    rw [List.getD_eq_getElem _ _ hi]; exact List.getElem_mem _
  have hH : ∀ i : Fin bs.length, 0 < bs[i].H := fun i => hU.H _ (List.getElem_mem _)
  have hfc := format_cp hf
  have hb0 : 0 < bs.length := by
    obtain ⟨-, -, hv, -⟩ := construct_ok ht
    exact hv.pos
  have hflip := format_flip hf (flow_given hf (hflow ⟨0, hb0⟩))
  unfold mixedNetwork at hr hr'
  rw [ht] at hr hr'
  dsimp only at hr hr'
  unfold networkFlow at hr hr'
  rw [hf] at hr
  rw [hflip] at hr'
  dsimp only at hr hr'
  obtain ⟨ki, -, hki, -⟩ := network_temperatures ht (fun i => pipe i (rs.getD i [])) f
  obtain ⟨ki', -, hki', -⟩ := network_temperatures ht (fun i => pipe i (rs.getD i [])) f.flip
  obtain ⟨R, hR⟩ := fieldResistance_some ht (fun i => pipe i [1]) f (bs.map Borehole.H).sum
  obtain ⟨R', hR'⟩ := fieldResistance_some ht (fun i => pipe i [1]) f.flip (bs.map Borehole.H).sum
  rw [hki, hR] at hr
  rw [hki', hR'] at hr'
  dsimp only at hr hr'
  rw [dif_pos (segments_total h.consistent)] at hr hr'
  dsimp only at hr hr'
  unfold mixedDetailed at hr hr'
  split_ifs at hr hr'
  have hth : ∀ i : Fin bs.length, (pipe i (rs.getD i [])).Thermal (mBore t f i) f.cp := fun i => by
    rw [hfc]; exact piped_thermal (hflow i) hcp (hH i) (hp i).piped.1 (h.pos _ (hmem i)) (h.sum _ (hmem i))
  have hth' : ∀ i : Fin bs.length, (pipe i (rs.getD i [])).Thermal (mBore t f.flip i) f.flip.cp := fun i => by
    rw [show f.flip.cp = f.cp from rfl, hfc, mBore_flip]; exact piped_thermal (neg_ne_zero.mpr (hflow i)) hcp (hH i) (hp i).piped.2 (h.pos _ (hmem i)) (h.sum _ (hmem i))
  have hmcp : (((m.map fun a => -a).map fun a => |a| * cp).sum) = (m.map fun a => |a| * cp).sum := by
    rw [List.map_map]
    congr 1
    exact List.map_congr_left fun a _ => by simp
  rw [hmcp] at hr'
  have hcpf : 0 < f.cp := by rw [hfc]; exact hcp
  have hpas := netFlow_passive (segments_total h.consistent) ht _ f hth hcpf hflow hki ((m.map fun a => |a| * cp).sum) R ks (segmentLengths bs ns rs)
  have hpas' := netFlow_passive (segments_total h.consistent) ht _ f.flip hth' hcpf (fun i => by rw [mBore_flip]; exact neg_ne_zero.mpr (hflow i)) hki'
    ((m.map fun a => |a| * cp).sum) R' ks (segmentLengths bs ns rs)
  obtain ⟨htr, -, -⟩ := network_transposed ht (fun i => pipe i (rs.getD i [])) f
    (fun i => by rw [hfc]; exact (hp i).mirrored (hflow i) hcp (hH i) (h.pos _ (hmem i)) (h.sum _ (hmem i))) (format_ok hf).1 hcpf.ne' hki hki'
  refine ⟨netFlow (segments_total h.consistent) (boreHeat t (fun i => pipe i (rs.getD i [])) f ki) ((m.map fun a => |a| * cp).sum) R ks (segmentLengths bs ns rs),
    netFlow (segments_total h.consistent) (boreHeat t (fun i => pipe i (rs.getD i [])) f.flip ki') ((m.map fun a => |a| * cp).sum) R' ks (segmentLengths bs ns rs), ⟨rfl, rfl, rfl, fun a b => ?_, hpas.equilibrium, hpas'.equilibrium⟩, rfl, rfl, hR, hR', hr, hr'⟩
  rw [one_mul, one_mul]
  exact htr _ _

include ht hcp hf hflow hp hU in
theorem resistances_mirror (ha : Aligned t f) (ha' : Aligned t f.flip) {Htot R R' : ℝ} (hR : fieldResistance t (fun i => pipe i [1]) f Htot = some R)
    (hR' : fieldResistance t (fun i => pipe i [1]) f.flip Htot = some R') : R' = R := by
  have hfc := format_cp hf
  have hcpf : 0 < f.cp := by rw [hfc]; exact hcp
  have hb0 : 0 < bs.length := by
    obtain ⟨-, -, hv, -⟩ := construct_ok ht
    exact hv.pos
  unfold fieldResistance at hR hR'
  obtain ⟨ki, ko, hki, hko, -⟩ := network_temperatures ht (fun i => pipe i [1]) f
  obtain ⟨ki', ko', hki', hko', -⟩ := network_temperatures ht (fun i => pipe i [1]) f.flip
  rw [hki, hko] at hR
  rw [hki', hko'] at hR'
  rw [← Option.some.inj hR, ← Option.some.inj hR']
  have hsum : (f.mIn.map abs).sum ≠ 0 := fun h0 => by
    have hall : ∀ a ∈ f.mIn, a = 0 := fun a ha => by
      have hle := List.single_le_sum (l := f.mIn.map abs) (fun x hx => by
        obtain ⟨y, -, rfl⟩ := List.mem_map.mp hx
        exact abs_nonneg y) |a| (List.mem_map.mpr ⟨a, ha, rfl⟩)
      rw [h0] at hle
      exact abs_eq_zero.mp (le_antisymm hle (abs_nonneg a))
    refine hflow ⟨0, hb0⟩ ?_
    unfold mBore
    rw [List.getD_eq_getElem?_getD]
    cases hx : f.mIn[t.iCircuit.getD (0 : ℕ) 0]? with
    | none => rfl
    | some a => exact hall a (List.mem_of_getElem? hx)
  exact (resistance_flip ht _ f (fun i => by rw [hfc]; exact (hp i).mirrored (hflow i) hcp (hU.H _ (List.getElem_mem _)) (by simp) (by simp)) (format_ok hf).1 hcpf.ne' hsum ha ha'
    hki hko hki' hko' Htot).symm

include hU h ht hcp hf hflow hp in
/-- The g-functions in both directions are found. -/
theorem two_way_returns (ha : 0 < alpha) (hK : ∀ t s r, K t true s r = fls t alpha (pairOf s r) true true) (hsp : Spaced rb bs) (hks : 0 < ks) {time : List ℝ} (hpos : ∀ t ∈ time, 0 < t)
    (hs : time.Pairwise (· < ·)) {thr : ℝ} (hthr : 0 < thr) : (∃ out, mixedNetwork K bs ns rs conn pipe ks m cp time thr = some out) ∧
      ∃ out, mixedNetwork K bs ns rs conn pipe ks (m.map fun a => -a) cp time thr = some out := by
  have hb0 : 0 < bs.length := by
    obtain ⟨-, -, hv, -⟩ := construct_ok ht
    exact hv.pos
  refine ⟨tube_network_returns ha hK hU h hsp hpos hs hthr ht hks hcp hf hflow fun i => (hp i).piped.1,
    tube_network_returns ha hK hU h hsp hpos hs hthr ht hks hcp (format_flip hf (flow_given hf (hflow ⟨0, hb0⟩))) (fun i => ?_) fun i => ?_⟩
  · rw [mBore_flip]; exact neg_ne_zero.mpr (hflow i)
  · rw [mBore_flip]; exact (hp i).piped.2

include hU h ht hcp hf hflow hp in
/-- **C142** (the part that holds, first value).  The g-function with a mixed inlet temperature of a network of reversible boreholes is found for both directions of flow.  When the outlets are mixed in
proportion to their flow rates, its first value, and its values under the threshold, do not depend on the direction. -/
theorem mixed_flip_partial (ha : 0 < alpha) (hK : ∀ t s r, K t true s r = fls t alpha (pairOf s r) true true) (hsp : Spaced rb bs) (hks : 0 < ks) {time : List ℝ} (hpos : ∀ t ∈ time, 0 < t)
    (hs : time.Pairwise (· < ·)) {thr : ℝ} (hthr : 0 < thr) (hal : Aligned t f) (hal' : Aligned t f.flip) :
    ∃ g Qs Ts g' Qs' Ts', mixedNetwork K bs ns rs conn pipe ks m cp time thr = some (g, Qs, Ts) ∧ mixedNetwork K bs ns rs conn pipe ks (m.map fun a => -a) cp time thr = some (g', Qs', Ts') ∧
      ∀ (k : ℕ) (t : ℝ), time[k]? = some t → k = 0 ∨ t ≤ thr → ∃ v, g[k]? = some v ∧ g'[k]? = some v := by
  obtain ⟨⟨⟨g, Qs, Ts⟩, hr⟩, ⟨g', Qs', Ts'⟩, hr'⟩ := two_way_returns hU h ht hcp hf hflow hp ha hK hsp hks hpos hs hthr
  refine ⟨g, Qs, Ts, g', Qs', Ts', hr, hr', fun k τ hk hkt => ?_⟩
  obtain ⟨fl, fl', hm, hfks, hHb, hR, hR', h1, h2⟩ := flow_mirror hU h ht hcp hf hflow hp hr hr'
  have hRR := resistances_mirror hU ht hcp hf hflow hp hal hal' hR hR'
  have hHpos : ∀ i, 0 < segmentLengths bs ns rs i := fun i => (segment_upright hU h (List.getElem_mem i.isLt)).2.2
  obtain ⟨v, hv, hv'⟩ := mift_mirror_first hm (by rw [hfks]; exact hks.ne') (fun i => by rw [hHb]; exact (hHpos i).ne') (fun i => by rw [hHb, one_mul])
    (Finset.sum_pos (fun i _ => hHpos i) ⟨⟨0, segments_nonempty hU h⟩, Finset.mem_univ _⟩).ne' (responses_sampled hK hU h) (fun t => segment_reciprocal hU h t)
    (timeLong_increasing hpos hs hthr) hs h1 h2 hk hkt
  exact ⟨v, hv, by rw [hv', hRR, sub_self, mul_zero, mul_zero, add_zero]⟩

include hU h ht hcp hf hflow hp in
/-- **C142** (the part that holds, evenly spaced times).  On a uniform grid of times the whole g-function does not depend on the direction. -/
theorem mixed_flip_uniform_partial (ha : 0 < alpha) (hK : ∀ t s r, K t true s r = fls t alpha (pairOf s r) true true) (hsp : Spaced rb bs) (hks : 0 < ks) {d : ℝ} (hd : 0 < d) (N : ℕ)
    {thr : ℝ} (hthr : 0 < thr) (hthr' : thr ≤ d) (hal : Aligned t f) (hal' : Aligned t f.flip) :
    ∃ g Qs Ts Qs' Ts', mixedNetwork K bs ns rs conn pipe ks m cp (d :: uniform d d N) thr = some (g, Qs, Ts) ∧
      mixedNetwork K bs ns rs conn pipe ks (m.map fun a => -a) cp (d :: uniform d d N) thr = some (g, Qs', Ts') := by
  have hinc : Increasing 0 (d :: uniform d d N) := ⟨hd, Sol.uniform_increasing hd d N⟩
  obtain ⟨⟨⟨g, Qs, Ts⟩, hr⟩, ⟨g', Qs', Ts'⟩, hr'⟩ := two_way_returns (time := d :: uniform d d N) hU h ht hcp hf hflow hp ha hK hsp hks (increasing_gt hinc) (Sol.increasing_pairwise hinc).of_cons hthr
  obtain ⟨fl, fl', hm, hfks, hHb, hR, hR', h1, h2⟩ := flow_mirror hU h ht hcp hf hflow hp hr hr'
  have hRR := resistances_mirror hU ht hcp hf hflow hp hal hal' hR hR'
  have hHpos : ∀ i, 0 < segmentLengths bs ns rs i := fun i => (segment_upright hU h (List.getElem_mem i.isLt)).2.2
  obtain ⟨hl, hv⟩ := mift_mirror_uniform hm (by rw [hfks]; exact hks.ne') (fun i => by rw [hHb]; exact (hHpos i).ne') (fun i => by rw [hHb, one_mul])
    (Finset.sum_pos (fun i _ => hHpos i) ⟨⟨0, segments_nonempty hU h⟩, Finset.mem_univ _⟩).ne' (responses_sampled hK hU h) (fun t => segment_reciprocal hU h t) hd N hthr' h1 h2
  have hgg : g' = g := by
    refine List.ext_getElem? fun k => ?_
    cases hk : g[k]? with
    | none =>
      rw [List.getElem?_eq_none_iff] at hk ⊢
      omega
    | some v => rw [hv k v hk, hRR, sub_self, mul_zero, add_zero]
  exact ⟨g, Qs, Ts, Qs', Ts', hr, hgg ▸ hr'⟩

end

theorem rowPipe_twoWay (i : Fin fieldRow.length) {m cp : ℝ} : TwoWay fieldRow[i] (rowPipe i) m cp := by
  refine Or.inl ⟨Pipe.UTube.sample true, Pipe.UTube.sample_valid true, ?_, rfl, fun r => rfl⟩
  have : (i : ℕ) < 4 := i.isLt
  rcases i with ⟨i, hi⟩
  interval_cases i <;> rfl

/-- Four boreholes in two circuits with different flow rates, both directions, ten years by months. -/
example : ∃ g Qs Ts Qs' Ts', mixedNetwork lineKernel fieldRow [2, 2, 2, 2] quarters (some [-1, 0, -1, 2]) rowPipe 2 [2, 3] 4 (2628000 :: uniform 2628000 2628000 119) 3600 = some (g, Qs, Ts) ∧
    mixedNetwork lineKernel fieldRow [2, 2, 2, 2] quarters (some [-1, 0, -1, 2]) rowPipe 2 [-2, -3] 4 (2628000 :: uniform 2628000 2628000 119) 3600 = some (g, Qs', Ts') := by
  have ha : Aligned pairs pairFlow := by
    intro k o ho
    have hk : k < 2 := by
      have := (List.getElem?_eq_some_iff.mp ho).1
      simpa [flowOutlets, pairs, pairFlow] using this
    interval_cases k
    · obtain rfl : 1 = o := by simpa [flowOutlets, pairs, pairFlow] using ho
      rfl
    · obtain rfl : 3 = o := by simpa [flowOutlets, pairs, pairFlow] using ho
      rfl
  have := mixed_flip_uniform_partial (alpha := 1 / 10 ^ 6) (K := lineKernel) fieldRow_upright quarters_splits pairs_ok (cp := 4) (by norm_num) pairFlow_ok pairs_flow (fun i => rowPipe_twoWay i)
    (by norm_num) (fun _ _ _ => rfl) fieldRow_spaced (ks := 2) (by norm_num) (d := 2628000) (by norm_num) 119 (thr := 3600) (by norm_num) (by norm_num) ha (aligned_rev pairs_ok _ rfl)
  simpa using this

/-- **C142** (refutation of the full statement).  Four identical boreholes with single U-tubes, of which the first feeds the last and the second feeds the third: the g-functions for the flow rates 1 and 3
and for the flow rates -1 and -3 differ, because the outlets are mixed in the wrong order for the first. -/
theorem mixed_flip_fails : ∃ g Qs Ts g' Qs' Ts',
    mixedNetwork lineKernel fieldRow [1, 1, 1, 1] [[1], [1], [1], [1]] (some [-1, -1, 1, 0]) rowPipe 2 [1, 3] 4 [10 ^ 6] (10 ^ 4) = some (g, Qs, Ts) ∧
    mixedNetwork lineKernel fieldRow [1, 1, 1, 1] [[1], [1], [1], [1]] (some [-1, -1, 1, 0]) rowPipe 2 [-1, -3] 4 [10 ^ 6] (10 ^ 4) = some (g', Qs', Ts') ∧
    ∃ v v', g[0]? = some v ∧ g'[0]? = some v' ∧ v ≠ v' := by
  obtain ⟨t, htd⟩ : ∃ t : Topology, t = ⟨4, [-1, -1, 1, 0], 2, 2, [0, 1], [2, 3], [0, 1, 1, 0]⟩ := ⟨_, rfl⟩
  have ht : construct fieldRow.length (some [-1, -1, 1, 0]) = .ok t := by rw [htd]; rfl
  obtain ⟨f, hfd⟩ : ∃ f : Formatted, f = ⟨[1, 3], false, 4⟩ := ⟨_, rfl⟩
  have hf : format t [1, 3] [4] = .ok f := by
    rw [htd, hfd]; norm_num [Net.format, formatFlow, formatCp]
  have hmv : mBore t f 0 = 1 ∧ mBore t f 1 = 3 ∧ mBore t f 2 = 3 ∧ mBore t f 3 = 1 := by rw [htd, hfd]; exact ⟨rfl, rfl, rfl, rfl⟩
  have hflow : ∀ i : Fin fieldRow.length, mBore t f i ≠ 0 := fun i => by
    have : (i : ℕ) < 4 := i.isLt
    obtain ⟨m0, m1, m2, m3⟩ := hmv
    interval_cases h : (i : ℕ) <;> simp only [m0, m1, m2, m3] <;> norm_num
  have hp : ∀ i : Fin fieldRow.length, TwoWay fieldRow[i] (rowPipe i) (mBore t f i) 4 := fun i => rowPipe_twoWay i
  obtain ⟨⟨⟨g, Qs, Ts⟩, hr⟩, ⟨g', Qs', Ts'⟩, hr'⟩ := two_way_returns (alpha := 1 / 10 ^ 6) (K := lineKernel) (time := [10 ^ 6]) (thr := 10 ^ 4) (ks := 2) fieldRow_upright fieldRow_splits ht
    (by norm_num) hf hflow hp (by norm_num) (fun _ _ _ => rfl) fieldRow_spaced (by norm_num) (by simp) (by simp) (by norm_num)
  obtain ⟨fl, fl', hm, hfks, hHb, hR, hR', h1, h2⟩ := flow_mirror fieldRow_upright fieldRow_splits ht (by norm_num) hf hflow hp hr hr'
  have hHpos : ∀ i, 0 < segmentLengths fieldRow [1, 1, 1, 1] [[1], [1], [1], [1]] i := fun i => (segment_upright fieldRow_upright fieldRow_splits (List.getElem_mem i.isLt)).2.2
  obtain ⟨v, hv, hv'⟩ := mift_mirror_first hm (by rw [hfks]; norm_num) (fun i => by rw [hHb]; exact (hHpos i).ne') (fun i => by rw [hHb, one_mul])
    (Finset.sum_pos (fun i _ => hHpos i) ⟨⟨0, segments_nonempty fieldRow_upright fieldRow_splits⟩, Finset.mem_univ _⟩).ne'
    (responses_sampled (alpha := 1 / 10 ^ 6) (fun _ _ _ => rfl) fieldRow_upright fieldRow_splits) (fun t => segment_reciprocal fieldRow_upright fieldRow_splits t)
    (timeLong_increasing (by simp) (by simp) (by norm_num)) (by simp) h1 h2 (k := 0) (t := 10 ^ 6) (by simp) (Or.inl rfl)
  have hneg : ([1, 3] : List ℝ).map (fun a => -a) = [-1, -3] := by simp
  rw [hneg] at hr'
  refine ⟨g, Qs, Ts, g', Qs', Ts', hr, hr', v, _, hv, hv', fun he => ?_⟩
  -- equal values need equal resistances
  have hu : underThreshold ((10 : ℝ) ^ 6) (10 ^ 4) = 1 := by
    unfold underThreshold
    rw [if_neg (by norm_num)]
  rw [hu, one_mul, hfks, left_eq_add] at he
  have hRR : fl.R = fl'.R := by
    have := (mul_eq_zero.mp he).resolve_left (by have := Real.pi_pos; positivity)
    linarith
  unfold fieldResistance at hR hR'
  obtain ⟨ki, ko, hki, hko, -⟩ := network_temperatures ht (fun i => rowPipe i [1]) f
  obtain ⟨ki', ko', hki', hko', -⟩ := network_temperatures ht (fun i => rowPipe i [1]) f.flip
  rw [hki, hko] at hR
  rw [hki', hko'] at hR'
  rw [← Option.some.inj hR, ← Option.some.inj hR'] at hRR
  have hfc : f.cp = 4 := by rw [hfd]
  have hH : ∀ i : Fin fieldRow.length, 0 < fieldRow[i].H := fun i => fieldRow_upright.H _ (List.getElem_mem _)
  have hp1 : ∀ i : Fin fieldRow.length, (rowPipe i [1]).Thermal (mBore t f i) f.cp := fun i => by
    rw [hfc]; exact piped_thermal (hflow i) (by norm_num) (hH i) (Or.inl (rowPipe_tube i).tube) (by simp) (by simp)
  have hmir : ∀ i : Fin fieldRow.length, (rowPipe i [1]).Mirrored (mBore t f i) f.cp := fun i => by
    rw [hfc]; exact (hp i).mirrored (hflow i) (by norm_num) (hH i) (by simp) (by simp)
  obtain ⟨-, -, hq⟩ := network_transposed ht _ f hmir (format_ok hf).1 (by rw [hfc]; norm_num) hki hki'
  have hmIn : (f.mIn.map abs).sum = 4 := by rw [hfd]; norm_num
  have hev : ∀ k : Coef Unit (fun _ : Fin fieldRow.length => 1), k.eval 1 0 () = k.aIn () := fun k => by simp [Coef.eval]
  have hbal := energy_balance_partial ht _ f.flip (by rw [flip_length]; exact (format_ok hf).1) (by rw [flip_abs, hmIn]; norm_num)
    (aligned_rev ht _ (by rw [hfd]; rfl)) ki' ko' hki' hko' 1 0
  rw [hev, hev, flip_abs, hmIn, show f.flip.cp = f.cp from rfl, hfc, ← hq] at hbal
  have hC := heat_response (fun i => rowPipe i [1]) f hp1 (ki := ki)
  have hpos := conductance_pos ht _ f hp1 (fun i => by
    rw [hfc]; exact (piped_weighted (r := [1]) (hflow i) (by norm_num) (hH i) (Or.inl (rowPipe_tube i)) (by simp) (by simp)).1) (by rw [hfc]; norm_num) hflow hki
  refine row_unbalanced htd hfd hki hko ?_
  have hq0 : (netHeat (fluidHeat t (fun i => rowPipe i [1]) f ki)).aIn () ≠ 0 := by rw [hC]; exact neg_ne_zero.mpr hpos.ne'
  unfold netResistance at hRR
  rw [← hq, div_left_inj' hq0] at hRR
  have hL : (fieldRow.map Borehole.H).sum = 400 := by norm_num [fieldRow]
  rw [hL] at hRR
  rw [hmIn]
  linarith

end Verif.Gf
