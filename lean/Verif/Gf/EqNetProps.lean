import Verif.Gf.EqNetModel
import Verif.Gf.RingProps
import Verif.Gf.TubeNetProps
import Verif.Net.EquivProps

/-!
# The `equivalent` solver with a mixed inlet temperature, from the boreholes and pipes
-/

noncomputable section

namespace Verif.Net

open Matrix

variable {n : ℕ} {ns : Fin n → ℕ} {t : Topology}

/-- In a network in parallel the inlet temperatures of the boreholes are that of the network. -/
theorem parallel_inlet (h : construct n none = .ok t) (p : (i : Fin n) → Pipe (ns i)) (f : Formatted) {ki : Coef (Fin n) ns} (hki : netInlet t p f = some ki) :
    (∀ i, ki.aIn i = 1) ∧ ∀ i s, ki.aB i s = 0 := by
  obtain ⟨ki', ko, h1, h2, -⟩ := network_temperatures h p f
  obtain rfl := Option.some.inj (hki.symm.trans h1)
  have key := parallel_temps h p f ki ko hki h2
  have e : ∀ i, ki.aIn i = 1 := fun i => by
    have := (key 1 0 i).1
    simpa [Coef.eval] using this
  refine ⟨e, fun i s => ?_⟩
  have := (key 0 (Pi.single s 1) i).1
  simpa [Coef.eval] using this

/-- … and the coefficients of the heat extraction rates are those of the boreholes. -/
theorem parallel_heat (h : construct n none = .ok t) (p : (i : Fin n) → Pipe (ns i)) (f : Formatted) {ki : Coef (Fin n) ns} (hki : netInlet t p f = some ki) :
    (∀ i a, (boreHeat t p f ki).aIn ⟨i, a⟩ = (p i).heatA (mBore t f i) f.cp a) ∧ (∀ i a b, (boreHeat t p f ki).aB ⟨i, a⟩ ⟨i, b⟩ = (p i).heatB (mBore t f i) f.cp a b) ∧
    ∀ i j a b, i ≠ j → (boreHeat t p f ki).aB ⟨i, a⟩ ⟨j, b⟩ = 0 := by
  obtain ⟨h1, h2⟩ := parallel_inlet h p f hki
  refine ⟨fun i a => ?_, fun i a b => ?_, fun i j a b hij => ?_⟩
  · simp [boreHeat, Matrix.mulVec, dotProduct, blockCol, h1]
  · simp [boreHeat, Matrix.mul_apply, blockCol, h2]
  · simp [boreHeat, Matrix.mul_apply, blockCol, h2, Matrix.blockDiagonal'_apply_ne _ _ _ hij]

end Verif.Net

namespace Verif.Gf

open Bore FLS Sol Net Finset EqIn

theorem place_uniform {N M n : ℕ} {cs : Fin N → ℕ} (hcs : ∀ i, cs i = n) (h : ∑ i, cs i = M) {k a : ℕ} (hk : k < N) (ha : a < n) (hlt : a + n * k < M) :
    (segPlace h).symm ⟨a + n * k, hlt⟩ = ⟨⟨k, hk⟩, ⟨a, by rw [hcs]; exact ha⟩⟩ := by
  rw [Equiv.symm_apply_eq]
  apply Fin.ext
  rw [segPlace_val]
  simp only [hcs]
  simp [Nat.mul_comm, Nat.add_comm]

/-- The coefficients of identical boreholes in parallel. -/
theorem netFlow_parallel {N M n : ℕ} {cs : Fin N → ℕ} (hcs : ∀ i, cs i = n) (hlen : ∑ i, cs i = M) {t : Topology} (ht : construct N none = .ok t) (p : (i : Fin N) → Net.Pipe (cs i)) (f : Formatted)
    {v : ℝ} (hv : ∀ i : Fin N, mBore t f i = v) {ki : Coef (Fin N) cs} (hki : netInlet t p f = some ki) {ain : ℕ → ℝ} {B : ℕ → ℕ → ℝ}
    (hA : ∀ i a, (p i).heatA v f.cp a = ain a) (hB : ∀ i a b, (p i).heatB v f.cp a b = B a b) (mcp R ks : ℝ) {Hb : Fin M → ℝ} {len : ℝ} (hHb : ∀ i, Hb i = len) :
    ParallelFlow n ain B len (netFlow hlen (boreHeat t p f ki) mcp R ks Hb) := by
  obtain ⟨h1, h2, h3⟩ := parallel_heat ht p f hki
  have hM : M = n * N := by
    rw [← hlen]
    simp [hcs, Nat.mul_comm]
  have hk : ∀ {a k : ℕ}, a + n * k < M → k < N := fun {a k} h => by
    by_contra hc
    have : n * N ≤ n * k := Nat.mul_le_mul_left n (by omega)
    omega
  refine ⟨fun k a ha h => ?_, fun k l a ha b hb h h' => ?_, hHb⟩
  · show (boreHeat t p f ki).aIn ((segPlace hlen).symm ⟨a + n * k, h⟩) = _
    rw [place_uniform hcs hlen (hk h) ha h, h1, hv, hA]
  · show (boreHeat t p f ki).aB ((segPlace hlen).symm ⟨a + n * k, h⟩) ((segPlace hlen).symm ⟨b + n * l, h'⟩) = _
    rw [place_uniform hcs hlen (hk h) ha h, place_uniform hcs hlen (hk h') hb h']
    by_cases hkl : k = l
    · subst hkl
      rw [if_pos rfl, h2, hv, hB]
    · rw [if_neg hkl]
      exact h3 _ _ _ _ fun e => hkl (Fin.mk.inj e)

/-- The resistance of the equivalent network is that of the network of all boreholes. -/
theorem equivalent_resistance {n N : ℕ} (hn : 0 < n) (hN : 0 < N) {t u : Topology} (h : eqConstruct n = .ok t) (hu : construct N none = .ok u) (g : Fin N → Fin n) {w : List ℕ} (hw : w.length = n)
    (hg : ∀ k : Fin n, w.getD k 0 = (Finset.univ.filter fun i => g i = k).card) (p : Net.Pipe 1) {m cp : ℝ} (hm : m ≠ 0) {F : Formatted} (hF : Net.format u [m] [cp] = .ok F) (Htot : ℝ) :
    ∃ R, eqResistance t (fun _ : Fin n => p) (eqFormat t w m cp) w Htot = some R ∧ fieldResistance u (fun _ : Fin N => p) F Htot = some R := by
  obtain ⟨ki, ko, h1, h2, -⟩ := network_temperatures (eqConstruct_eq hn h) (fun _ : Fin n => p) (eqFormat t w m cp)
  obtain ⟨Ki, Ko, h3, h4, -⟩ := network_temperatures hu (fun _ : Fin N => p) F
  obtain ⟨e1, e2⟩ := equivalent_network_exact hn hN h hu g w hw hg (fun _ => p) m cp hm F hF ki ko h1 h2 Ki Ko h3 h4 1 0
  have z : ∀ {k : ℕ} {cs : Fin k → ℕ} (c : Coef Unit cs), c.eval 1 0 () = c.aIn () := fun c => by simp [Coef.eval]
  have e0 : (fun s : SegIdx (fun _ : Fin N => 1) => (0 : SegIdx (fun _ : Fin n => 1) → ℝ) ⟨g s.1, s.2⟩) = 0 := rfl
  rw [e0, z, z] at e1
  rw [e0, z, z] at e2
  refine ⟨_, by unfold eqResistance; rw [h1, h2], ?_⟩
  unfold fieldResistance
  rw [h3, h4]
  dsimp only
  unfold netResistance
  rw [e1, e2]

theorem format_number {u : Topology} {m cp : ℝ} (hm : m ≠ 0) : ∃ F, Net.format u [m] [cp] = .ok F ∧ F.mIn = List.replicate u.nInlets (m / u.nInlets) ∧ F.cp = cp := by
  rcases lt_or_gt_of_ne hm with h | h
  · exact ⟨⟨List.replicate u.nInlets (m / u.nInlets), true, cp⟩, by simp [Net.format, formatFlow, formatCp, h.le, not_le.mpr h], rfl, rfl⟩
  · exact ⟨⟨List.replicate u.nInlets (m / u.nInlets), false, cp⟩, by simp [Net.format, formatFlow, formatCp, h.le], rfl, rfl⟩

theorem fin_card (N : ℕ) (f : ℕ → ℕ) (k : ℕ) : (Finset.univ.filter fun i : Fin N => f i = k).card = ((List.range N).filter fun i => f i = k).length := by
  rw [Finset.card_filter, Fin.sum_univ_eq_sum_range fun i => if f i = k then 1 else 0]
  induction N with
  | zero => simp
  | succ N ih =>
    rw [Finset.sum_range_succ, ih, List.range_succ, List.filter_append, List.length_append]
    by_cases h : f N = k <;> simp [h]

theorem length_sum (l : List ℝ) (H : ℝ) (h : ∀ x ∈ l, x = H) : l.sum = l.length * H := by
  rw [List.eq_replicate_of_mem h, List.sum_replicate, List.length_replicate, nsmul_eq_mul]

theorem eqHtot_same (w : List ℕ) (l : List ℝ) (hl : l.length = w.length) (H : ℝ) (h : ∀ x ∈ l, x = H) : eqHtot w l = w.sum * H := by
  induction w generalizing l with
  | nil => simp [eqHtot]
  | cons a w ih =>
    cases l with
    | nil => simp at hl
    | cons x l =>
      have := ih l (by simpa using hl) fun y hy => h y (List.mem_cons_of_mem _ hy)
      unfold eqHtot at this ⊢
      rw [List.zipWith_cons_cons, List.sum_cons, this, h x List.mem_cons_self, List.sum_cons]
      push_cast
      ring

variable {E : EqIn} {H D rb alpha : ℝ} {n : ℕ}

/-- **C124.**  Identical vertical boreholes in parallel, all with the pipes of the same single, multiple or coaxial U-tube, with spacings of at least ten radii and distances that do not merge:
when the groups are balanced, the g-function with a mixed inlet temperature computed by the `equivalent` solver with its equivalent network is that of the `detailed` solver with the network
of all boreholes, for any total flow rate; the heat extraction rates and temperatures of a group are those of each of its boreholes. -/
theorem mixed_parallel (ha : 0 < alpha) {K : ℝ → Bool → Borehole → Borehole → ℝ} (hK : ∀ t s r, K t true s r = fls t alpha (pairOf s r) true true) (hc : CutOk E.cut) (hB : Balanced E)
    (hU : (E.field n).UniformField H D rb n) (hsp : Gf.Spaced rb (bores (E.field n))) {dis : List ℝ} {wDis : List ℕ} (hu : UniqueDistance E.disTol E.allDistances dis wDis)
    {time : List ℝ} (hpos : ∀ t ∈ time, 0 < t) (hs : time.Pairwise (· < ·)) {thr : ℝ} (hthr : 0 < thr) {es : List EqBore} (hes : E.equivalents = some es)
    {conn : Option (List ℤ)} (hconn : conn = none ∨ conn = some (List.replicate E.N (-1))) {P : (r : List ℝ) → Net.Pipe r.length} {pipe : ℕ → (r : List ℝ) → Net.Pipe r.length}
    (hpipe : ∀ k < E.N, pipe k = P) {ks m cp : ℝ} (hks : 0 < ks) (hm : m ≠ 0) (hcp : 0 < cp) (hP : ∀ k < E.N, UTubeIn (E.bore k) P (m / E.N) ∨ MultipleIn (E.bore k) P (m / E.N) cp) :
    ∃ g Qs Qs' Ts Ts', mixedNetwork K (bores (E.field n)) (counts (E.field n)) (ratios (E.field n)) conn (fun i => pipe i) ks [m] cp time thr = some (g, Qs, Ts) ∧
      mixedEquivalentNetwork (fun t => EqSol.flsE t alpha) (fun t p => fls t alpha p true true) E es dis n (uniformRatios n) pipe ks m cp time thr = some (g, Qs', Ts') ∧
      Qs.length = time.length ∧ Qs'.length = time.length ∧
      (∀ (p : ℕ) Q Q', Qs[p]? = some Q → Qs'[p]? = some Q' → ∀ k < E.N, ∀ a < n, ∀ h h', Q ⟨a + n * k, h⟩ = Q' ⟨a + n * label E k, h'⟩) ∧
      ∀ k < E.N, ∀ a < n, ∀ h h', Ts ⟨a + n * k, h⟩ = Ts' ⟨a + n * label E k, h'⟩ := by
  have hft := identical_fit hU.toIdentical
  obtain ⟨es', hes', hlen, hget⟩ := E.uniform_equivalents hc hU.toIdentical
  obtain rfl := Option.some.inj (hes.symm.trans hes')
  obtain ⟨r1, r2, r3⟩ := uniformRatios_ok hU.pos.2.2.2
  have hcount := segments_count _ hft.len
  have hN : (bores (E.field n)).length = E.N := by simp [bores, field]
  have hN0 : 0 < E.N := hU.size
  -- the network of all boreholes
  obtain ⟨u, hu0, hu1, -, -⟩ := construct_default (bores (E.field n)).length (by omega)
  have hcu : construct (bores (E.field n)).length conn = .ok u := by
    rcases hconn with rfl | rfl
    · exact hu0
    · rw [← hN]; exact hu0
  obtain ⟨F, hF, hFm, hFc⟩ := format_number (u := u) (cp := cp) hm
  rw [hu1, hN] at hFm
  have hv : ∀ i : Fin (bores (E.field n)).length, mBore u F i = m / E.N := parallel_mBore (by omega) hu0 F _ (by rw [hFm, hN])
  have hrs : ∀ i : Fin (bores (E.field n)).length, (ratios (E.field n)).getD i [] = uniformRatios n := fun i => by
    have : (i : ℕ) < E.N := lt_of_lt_of_eq i.isLt hN
    simp [ratios, field, List.getD_eq_getElem?_getD, this]
  have hpi : ∀ i : Fin (bores (E.field n)).length, pipe i = P := fun i => hpipe i (by rw [← hN]; exact i.isLt)
  -- the equivalent network
  have he0 : 0 < es.length := by
    rw [hlen]
    exact lt_of_le_of_lt (Nat.zero_le _) (label_lt E hc hN0)
  obtain ⟨t, ht⟩ := eqConstruct_ok he0
  have ht0 := eqConstruct_eq he0 ht
  have hw : (groupSizes (E.solver es dis n (uniformRatios n))).length = es.length := by simp [groupSizes, solver]
  have hlt : ∀ i : Fin (bores (E.field n)).length, label E i < es.length := fun i => by
    rw [hlen]
    exact label_lt E hc (lt_of_lt_of_eq i.isLt hN)
  obtain ⟨g, hg⟩ : ∃ g : Fin (bores (E.field n)).length → Fin es.length, ∀ i, ((g i : Fin es.length) : ℕ) = label E i := ⟨fun i => ⟨label E i, hlt i⟩, fun _ => rfl⟩
  have hgs : ∀ k : Fin es.length, (groupSizes (E.solver es dis n (uniformRatios n))).getD k 0 = (Finset.univ.filter fun i => g i = k).card := fun k => by
    have hk := k.isLt
    have e1 : (groupSizes (E.solver es dis n (uniformRatios n))).getD k 0 = (E.cluster k).length := by
      have := hget k (by omega)
      simp only [groupSizes, solver, List.getD_eq_getElem?_getD, List.getElem?_map, List.getElem?_range hk, Option.map_some, Option.getD_some] at this ⊢
      rw [this, List.length_map]
    rw [e1, cluster_filter E hc, ← hN, ← fin_card]
    congr 1
    ext i
    simp [Fin.ext_iff, hg]
  have hsum : (groupSizes (E.solver es dis n (uniformRatios n))).sum = E.N := by
    rw [← getD_sum _ hw, Finset.sum_congr rfl fun k _ => hgs k]
    have := (Finset.card_eq_sum_card_fiberwise (f := g) (s := Finset.univ) (t := Finset.univ) fun _ _ => Finset.mem_coe.mpr (Finset.mem_univ _)).symm
    rw [Finset.card_univ, Fintype.card_fin] at this
    exact this.trans hN
  have hv' : ∀ i : Fin es.length, mBore t (eqFormat t (groupSizes (E.solver es dis n (uniformRatios n))) m cp) i = m / E.N := fun i => by
    refine parallel_mBore he0 ht0 _ _ ?_ i
    rw [← hsum]
    simp [eqFormat, (parallel_lists he0 ht0).1]
  have hpe : ∀ i : Fin es.length, pipe (E.clusters.1.findIdx fun c : ℕ => c = (i : ℕ)) = P := fun i => hpipe _ (by
    obtain ⟨c1, -, c3⟩ := E.clusters_spec hc
    rw [← c1]
    exact List.findIdx_lt_length_of_exists ⟨i, c3 i (by rw [← hlen]; exact i.isLt), by simp⟩)
  -- the coefficients of a borehole
  obtain ⟨ain, hain⟩ : ∃ ain : ℕ → ℝ, ∀ r, r = uniformRatios n → ∀ Q : (r : List ℝ) → Net.Pipe r.length, Q = P → ∀ a : Fin r.length, (Q r).heatA (m / E.N) cp a = ain a :=
    ⟨fun a => if h : a < (uniformRatios n).length then (P (uniformRatios n)).heatA (m / E.N) cp ⟨a, h⟩ else 0, by
      rintro r rfl Q rfl a
      dsimp only
      rw [dif_pos a.isLt]⟩
  obtain ⟨B, hBB⟩ : ∃ B : ℕ → ℕ → ℝ, ∀ r, r = uniformRatios n → ∀ Q : (r : List ℝ) → Net.Pipe r.length, Q = P → ∀ a b : Fin r.length, (Q r).heatB (m / E.N) cp a b = B a b :=
    ⟨fun a b => if h : a < (uniformRatios n).length then if h' : b < (uniformRatios n).length then (P (uniformRatios n)).heatB (m / E.N) cp ⟨a, h⟩ ⟨b, h'⟩ else 0 else 0, by
      rintro r rfl Q rfl a b
      dsimp only
      rw [dif_pos a.isLt, dif_pos b.isLt]⟩
  -- lengths of the segments
  have hL : ∀ i, segmentLengths (bores (E.field n)) (counts (E.field n)) (ratios (E.field n)) i = H / n := fun i => by
    obtain ⟨k, hk, a, ha, e⟩ := (E.field n).first_exists (k := (E.field n).N) (r := i.val) (by rw [← hcount]; exact i.isLt)
    have hlt : a + (E.field n).first k < (segmentList (bores (E.field n)) (counts (E.field n)) (ratios (E.field n))).length := by rw [← e]; exact i.isLt
    have hi' : i = ⟨_, hlt⟩ := Fin.ext e
    rw [hi', hft.lengthAt hk ha hlt, ((E.field n).seg_uniform (k := k) (n := n) rfl (hU.tilt_eq k hk) ha).1, hU.H_eq k hk]
  have hH' : ∀ i < es.length, ((E.solver es dis n (uniformRatios n)).eb i).H = H := fun i hi => by
    have := hget i (by omega)
    simp only [solver]
    rw [this]
  have hL' : ∀ i : Fin (n * es.length), (lengthsOne (E.solver es dis n (uniformRatios n))).getD i 0 = H / n := fun i => by
    have hn := hU.pos.2.2.2
    have hq : (i : ℕ) / n < es.length := Nat.div_lt_of_lt_mul i.isLt
    have ha : (i : ℕ) % n < n := Nat.mod_lt _ hn
    have := flat_get es.length n (fun k a => ((E.solver es dis n (uniformRatios n)).sim.seg k a).H) hq ha
    rw [Nat.mod_add_div] at this
    refine this.trans ?_
    rw [((E.solver es dis n (uniformRatios n)).sim.seg_uniform (n := n) rfl rfl ha).1]
    exact congrArg (· / (n : ℝ)) (hH' _ hq)
  -- resistances
  have hT1 : ((bores (E.field n)).map Borehole.H).sum = E.N * H := by
    rw [length_sum _ H fun x hx => ?_, List.length_map, hN]
    obtain ⟨b, hb, rfl⟩ := List.mem_map.mp hx
    obtain ⟨k, hk, rfl⟩ := List.mem_map.mp hb
    exact hU.H_eq k (List.mem_range.mp hk)
  have hT2 : eqHtot (groupSizes (E.solver es dis n (uniformRatios n))) ((List.range es.length).map fun i => ((E.solver es dis n (uniformRatios n)).eb i).H) = E.N * H := by
    rw [eqHtot_same _ _ (by rw [hw]; simp) H fun x hx => ?_, hsum]
    obtain ⟨k, hk, rfl⟩ := List.mem_map.mp hx
    exact hH' k (List.mem_range.mp hk)
  obtain ⟨R, hR', hR⟩ := equivalent_resistance he0 (by omega) ht hu0 g hw hgs (P [1]) hm hF (E.N * H)
  obtain ⟨ki, -, hki, -, -⟩ := network_temperatures hu0 (fun i => pipe i ((ratios (E.field n)).getD i [])) F
  obtain ⟨ki', -, hki', -, -⟩ := network_temperatures ht0 (fun i : Fin es.length => pipe (E.clusters.1.findIdx fun c : ℕ => c = (i : ℕ)) (uniformRatios n))
    (eqFormat t (groupSizes (E.solver es dis n (uniformRatios n))) m cp)
  have hd' : ∑ _i : Fin es.length, (uniformRatios n).length = n * es.length := by
    rw [r3]
    simp [Nat.mul_comm]
  have hd := segments_total hft.splits.consistent
  have hm0 : m / (E.N : ℝ) ≠ 0 := div_ne_zero hm (by exact_mod_cast hN0.ne')
  have p1 := netFlow_parallel (fun i => by rw [hrs i, r3]) hd hu0 (fun i => pipe i ((ratios (E.field n)).getD i [])) F hv hki (ain := ain) (B := B)
    (fun i a => by rw [hFc]; exact hain _ (hrs i) _ (hpi i) a) (fun i a b => by rw [hFc]; exact hBB _ (hrs i) _ (hpi i) a b) (([m].map fun a => |a| * cp).sum) R ks hL
  have p2 := netFlow_parallel (fun _ => r3) hd' ht0 _ _ hv' hki' (ain := ain) (B := B) (fun i a => hain _ rfl _ (hpe i) a) (fun i a b => hBB _ rfl _ (hpe i) a b) (|m| * cp) R ks hL'
  have hpas := netFlow_passive hd hu0 (fun i => pipe i ((ratios (E.field n)).getD i [])) F (fun i => by
    have hi : (i : ℕ) < E.N := lt_of_lt_of_eq i.isLt hN
    rw [hv i, hFc, hpi i, hrs i]
    exact piped_thermal hm0 hcp (lt_of_lt_of_eq hU.pos.1 (hU.H_eq i hi).symm) (hP i hi) r1 r2) (by rw [hFc]; exact hcp) (fun i => by rw [hv i]; exact hm0) hki
    (([m].map fun a => |a| * cp).sum) R ks (segmentLengths (bores (E.field n)) (counts (E.field n)) (ratios (E.field n)))
  obtain ⟨G, Qs, Qs', Ts, Ts', h1, h2, h3⟩ := mixed_balanced ha hK hc hB hU hsp hu hpos hs hthr hes p1 p2 (by simp [netFlow]) rfl rfl hpas hks
  refine ⟨G, Qs, Qs', Ts, Ts', ?_, ?_, h3⟩
  · unfold mixedNetwork networkFlow
    rw [hcu]
    dsimp only
    rw [hF]
    dsimp only
    have e : (fun i : Fin (bores (E.field n)).length => pipe i [1]) = fun _ => P [1] := funext fun i => by rw [hpi i]
    rw [hki, hT1, e, hR]
    dsimp only
    rw [dif_pos hd]
    exact h1
  · unfold mixedEquivalentNetwork equivalentFlow
    have e : (fun i : Fin es.length => pipe (E.clusters.1.findIdx fun c : ℕ => c = (i : ℕ)) [1]) = fun _ => P [1] := funext fun i => by rw [hpe i]
    rw [show eqConstruct (E.solver es dis n (uniformRatios n)).n = .ok t from ht]
    dsimp only
    rw [show netInlet t (fun i : Fin (E.solver es dis n (uniformRatios n)).n => pipe (E.clusters.1.findIdx fun c : ℕ => c = (i : ℕ)) (E.solver es dis n (uniformRatios n)).rs) _ = some ki' from hki',
      show eqResistance t (fun i : Fin (E.solver es dis n (uniformRatios n)).n => pipe (E.clusters.1.findIdx fun c : ℕ => c = (i : ℕ)) [1]) _ _ _ = some R from by
        rw [← hR', ← e, ← hT2]; rfl]
    dsimp only
    rw [dif_pos (show ∑ _i : Fin (E.solver es dis n (uniformRatios n)).n, (E.solver es dis n (uniformRatios n)).rs.length =
      (E.solver es dis n (uniformRatios n)).ns * (E.solver es dis n (uniformRatios n)).n from hd')]
    exact h2

/-- Four boreholes on a circle, each with two U-tubes in series, with a reversed total flow of 8 kg/s. -/
example : ∃ P dis es g Qs Qs' Ts Ts', ring4.equivalents = some es ∧
    mixedNetwork lineKernel (bores (ring4.field 12)) (counts (ring4.field 12)) (ratios (ring4.field 12)) (some [-1, -1, -1, -1]) (fun _ => P) 2 [-8] 4000 [3600, 10 ^ 6, 10 ^ 9] 3600 = some (g, Qs, Ts) ∧
    mixedEquivalentNetwork (fun t => EqSol.flsE t (1 / 10 ^ 6)) (fun t p => fls t (1 / 10 ^ 6) p true true) ring4 es dis 12 (uniformRatios 12) (fun _ => P) 2 (-8) 4000 [3600, 10 ^ 6, 10 ^ 9] 3600 =
      some (g, Qs', Ts') := by
  obtain ⟨dis, wDis, -, hu, -⟩ := unique_distance_groups ring4.disTol (by norm_num [ring4]) ring4.allDistances (by
    intro x hx
    obtain ⟨k, hk, l, hl, rfl⟩ := (ring4.mem_allDistances ring4_uniform.toIdentical).mp hx
    exact lt_of_lt_of_le (by norm_num [ring4]) (le_max_left _ _))
  obtain ⟨es, hes, -⟩ := ring4.uniform_equivalents twoClusters_ok ring4_uniform.toIdentical
  obtain ⟨P, hP⟩ := multipleIn_exists (ring4.bore 0) (by norm_num [ring4]) (Pipe.Multi.sample_circuit 2) .series (reversible := true) (m := -2) (cp := 4000)
    ⟨by norm_num, by norm_num, by norm_num, Or.inr rfl⟩
  obtain ⟨g, Qs, Qs', Ts, Ts', h1, h2, -⟩ := mixed_parallel (alpha := 1 / 10 ^ 6) (K := lineKernel) (by norm_num) (fun _ _ _ => rfl) twoClusters_ok
    (alike_balanced ring4_uniform.toIdentical twoClusters_ok ring4_alike) ring4_uniform ring4_spaced hu (time := [3600, 10 ^ 6, 10 ^ 9]) (by norm_num) (by norm_num) (thr := 3600) (by norm_num) hes
    (conn := some [-1, -1, -1, -1]) (Or.inr rfl) (P := P) (pipe := fun _ => P) (fun _ _ => rfl) (ks := 2) (m := -8) (cp := 4000) (by norm_num) (by norm_num) (by norm_num) fun k _ => Or.inr (by
      rw [show (-8 : ℝ) / ring4.N = -2 by norm_num [ring4]]
      exact hP)
  exact ⟨P, dis, es, g, Qs, Qs', Ts, Ts', hes, h1, h2⟩

end Verif.Gf
