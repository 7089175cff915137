import Verif.Sol.StepProps
import Verif.Gf.SeriesProps
import Verif.LoadAgg.ErrorProps
import Verif.LoadAgg.CJProps

/-!
# Property C145: simulations with the g-function are those of the field
-/

noncomputable section

namespace Verif.Gf

open Bore Sol Net FLS LoadAgg

variable {bs : List Borehole} {ns : List ℕ} {rs : List (List ℝ)} {conn : Option (List ℤ)} {t : Topology}

/-- Specification: a history of the network.  During the time step `k ≤ M` of duration `d` the mean rate of the segments is `P k`, the segment `i` has the rate `q k i` per unit length;
at its end the fluid enters the network at the temperature `Tin k` and the wall of the segment `i` is at the temperature `T k i`.  Rates and temperatures are divided by `2 π ks` and positive
for heat given to the ground. -/
structure NetworkHistory (t : Topology) (f : Formatted) {N : ℕ} {cs : Fin N → ℕ} (p : (i : Fin N) → Net.Pipe (cs i)) (ki : Coef (Fin N) cs) {L : ℕ} (hL : ∑ i, cs i = L) (ks : ℝ)
    (H : Fin L → ℝ) (F : Fin L → Fin L → ℝ → ℝ) (d : ℝ) (M : ℕ) (P : ℕ → ℝ) (q T : ℕ → Fin L → ℝ) (Tin : ℕ → ℝ) : Prop where
  load : ∀ k ≤ M, ∑ i, H i * q k i = P k * ∑ i, H i
  walls : ∀ k ≤ M, ∀ i, T k i = felt F d q k i
  pipes : ∀ k ≤ M, ∀ s, (boreHeat t p f ki).eval (Tin k) (fun s => T k (segPlace hL s)) s = -(2 * Real.pi * ks * H (segPlace hL s) * q k (segPlace hL s))

theorem uniform_grid {d : ℝ} (hd : 0 < d) (m : ℕ) : (∀ t ∈ d :: uniform d d m, 0 < t) ∧ (d :: uniform d d m).Pairwise (· < ·) := by
  have key : ∀ (m : ℕ) (a : ℝ), (∀ t ∈ uniform d a m, a < t) ∧ (uniform d a m).Pairwise (· < ·) := by
    intro m
    induction m with
    | zero => intro a; simp [uniform]
    | succ m ih =>
      intro a
      obtain ⟨h1, h2⟩ := ih (a + d)
      rw [uniform]
      refine ⟨fun t ht => ?_, List.pairwise_cons.mpr ⟨h1, h2⟩⟩
      rcases List.mem_cons.mp ht with rfl | ht
      · linarith
      · linarith [h1 t ht]
  obtain ⟨h1, h2⟩ := key m d
  refine ⟨fun t ht => ?_, List.pairwise_cons.mpr ⟨h1, h2⟩⟩
  rcases List.mem_cons.mp ht with rfl | ht
  · exact hd
  · exact hd.trans (h1 t ht)

/-- **C145** (uniform temperature).  For every sequence of mean rates the field has a history with uniform wall temperatures, and the wall temperature is the temporal superposition of the
g-function. -/
theorem field_simulation {alpha rb : ℝ} (ha : 0 < alpha) {K : ℝ → Bool → Borehole → Borehole → ℝ} (hK : ∀ t s r, K t true s r = fls t alpha (pairOf s r) true true) (hU : Upright rb bs)
    (h : Splits bs ns rs) (hsp : Spaced rb bs) {d : ℝ} (hd : 0 < d) (M : ℕ) {thr : ℝ} (h0 : 0 < thr) (hthr : thr ≤ d) :
    ∃ g Qs, temperatureDetailed K bs ns rs (d :: uniform d d M) thr = some (g, Qs) ∧ ∀ P : ℕ → ℝ,
      (∃ q T, WallHistory (segmentLengths bs ns rs) (segmentResponse alpha bs ns rs) d M P q T) ∧
      ∀ q T, WallHistory (segmentLengths bs ns rs) (segmentResponse alpha bs ns rs) d M P q T → ∀ k ≤ M, T k = ∑ l ∈ Finset.range (k + 1), change P l * g.getD (k - l) 0 := by
  obtain ⟨hpos, hs⟩ := uniform_grid hd M
  obtain ⟨⟨g, Qs⟩, hout⟩ := temperature_returns ha hK hU h hsp hpos hs h0
  have hout2 := hout
  unfold temperatureDetailed at hout2
  rw [if_pos fun t _ => (detailed_value hK hU h t).1] at hout2
  exact ⟨g, Qs, hout, fun P => wall_step_response (responses_sampled hK hU h) hd M hthr hout2 P⟩

/-- **C145** (mixed inlet temperature).  For every sequence of mean rates the network has a history, and its mean fluid temperature is the temporal superposition of the g-function plus the
difference at the effective resistance of the network. -/
theorem network_simulation {alpha rb : ℝ} {K : ℝ → Bool → Borehole → Borehole → ℝ} (hK : ∀ t s r, K t true s r = fls t alpha (pairOf s r) true true) (hU : Upright rb bs)
    (h : Splits bs ns rs) (ht : construct bs.length conn = .ok t) {pipe : Fin bs.length → (r : List ℝ) → Net.Pipe r.length} {ks : ℝ} (hks : 0 < ks) {m : List ℝ} {cp : ℝ}
    {f : Formatted} (hf : format t m [cp] = .ok f) {d : ℝ} (hd : 0 < d) (M : ℕ) {thr : ℝ} (hthr : thr ≤ d)
    {g : List ℝ} {Qs : List (Fin (segmentList bs ns rs).length → ℝ)} {Ts : Fin (segmentList bs ns rs).length → List ℝ}
    (hr : mixedNetwork K bs ns rs conn pipe ks m cp (d :: uniform d d M) thr = some (g, Qs, Ts)) :
    ∃ ki R, netInlet t (fun i => pipe i (rs.getD i [])) f = some ki ∧ fieldResistance t (fun i => pipe i [1]) f (bs.map Borehole.H).sum = some R ∧ ∀ P : ℕ → ℝ,
      (∃ q T Tin, NetworkHistory t f (fun i => pipe i (rs.getD i [])) ki (segments_total h.consistent) ks (segmentLengths bs ns rs) (segmentResponse alpha bs ns rs) d M P q T Tin) ∧
      ∀ q T Tin, NetworkHistory t f (fun i => pipe i (rs.getD i [])) ki (segments_total h.consistent) ks (segmentLengths bs ns rs) (segmentResponse alpha bs ns rs) d M P q T Tin →
        ∀ k ≤ M, ∀ Tout, (m.map fun a => |a| * cp).sum ≠ 0 → (m.map fun a => |a| * cp).sum * (Tin k - Tout) = 2 * Real.pi * ks * (P k * ∑ i, segmentLengths bs ns rs i) →
          (Tin k + Tout) / 2 - 2 * Real.pi * ks * P k * R = ∑ l ∈ Finset.range (k + 1), change P l * g.getD (k - l) 0 := by
  obtain ⟨ki, k1, ko1, hki, hk1, hko1, hmift⟩ := mixedNetwork_parts ht (segments_total h.consistent) hf hr
  obtain ⟨fl, hfl⟩ : ∃ fl, fl = netFlow (segments_total h.consistent) (boreHeat t (fun i => pipe i (rs.getD i [])) f ki) ((m.map fun a => |a| * cp).sum)
        (netResistance (bs.map Borehole.H).sum (netMixed (mixing (flowOutlets t f) f.mIn) ko1) (netHeat (fluidHeat t (fun i => pipe i [1]) f k1))) ks (segmentLengths bs ns rs) := ⟨_, rfl⟩
  rw [← hfl] at hmift
  have eks : fl.ks = ks := by rw [hfl]; rfl
  have eHb : fl.Hb = segmentLengths bs ns rs := by rw [hfl]; rfl
  have hHpos : ∀ i, 0 < segmentLengths bs ns rs i := fun i => (segment_upright hU h (List.getElem_mem i.isLt)).2.2
  have heat : ∀ Tin (T : Fin (segmentList bs ns rs).length → ℝ) s, (boreHeat t (fun i => pipe i (rs.getD i [])) f ki).eval Tin (fun s => T (segPlace (segments_total h.consistent) s)) s
      = fl.aIn (segPlace (segments_total h.consistent) s) * Tin + ∑ j, fl.aB (segPlace (segments_total h.consistent) s) j * T j := fun Tin T s => by
    rw [hfl, ← (segPlace (segments_total h.consistent)).sum_comp]
    unfold netFlow Coef.eval
    simp only [Equiv.symm_apply_apply, Matrix.mulVec, dotProduct]
  have hiff : ∀ P q T Tin, InletHistory (segmentLengths bs ns rs) fl (segmentResponse alpha bs ns rs) d M P q T Tin ↔
      NetworkHistory t f (fun i => pipe i (rs.getD i [])) ki (segments_total h.consistent) ks (segmentLengths bs ns rs) (segmentResponse alpha bs ns rs) d M P q T Tin := fun P q T Tin => by
    constructor
    · rintro ⟨h1, h2, h3⟩
      refine ⟨h1, h2, fun k hk s => ?_⟩
      rw [heat, h3 k hk, eks, eHb]
    · rintro ⟨h1, h2, h3⟩
      refine ⟨h1, h2, fun k hk i => ?_⟩
      have := h3 k hk ((segPlace (segments_total h.consistent)).symm i)
      rw [heat, Equiv.apply_symm_apply] at this
      rw [this, eks, eHb]
  refine ⟨ki, fl.R, hki, ?_, fun P => ?_⟩
  · unfold fieldResistance
    rw [hk1, hko1, hfl]
    rfl
  · obtain ⟨⟨q, T, Tin, he⟩, hall⟩ := inlet_step_response (by rw [eks]; exact hks.ne') (by rw [eHb]; exact fun i => (hHpos i).ne') (responses_sampled hK hU h) hd M hthr hmift P
    refine ⟨⟨q, T, Tin, (hiff _ _ _ _).mp he⟩, fun q T Tin hN k hk Tout hm hTout => ?_⟩
    have e : fl.mcp = (m.map fun a => |a| * cp).sum := by rw [hfl]; rfl
    have := hall q T Tin ((hiff _ _ _ _).mpr hN) k hk Tout (by rw [e, eks]; exact hTout) (by rw [e]; exact hm)
    rw [eks] at this
    exact this

/-! ### Load aggregation -/

/-- The superposition of the changes of a load, latest step first. -/
theorem changes_superpose (g : ℕ → ℝ) (p : List ℝ) {k : ℕ} (hk : p.length = k + 1) :
    ∑ l ∈ Finset.range (k + 1), change (fun l => p.getD (k - l) 0) l * g (k - l) = LoadAgg.superpose g p := by
  unfold LoadAgg.superpose
  rw [hk, ← Finset.sum_range_reflect]
  refine Finset.sum_congr rfl fun j hj => ?_
  have hj' := Finset.mem_range.mp hj
  rw [show k - (k + 1 - 1 - j) = j by omega]
  congr 1
  unfold change
  beta_reduce
  rw [show k - (k + 1 - 1 - j) = j by omega]
  congr 1
  split_ifs with h0
  · rw [List.getD_eq_default _ _ (by omega)]
  · rw [show k - (k + 1 - 1 - j - 1) = j + 1 by omega]

/-- **C145** (Claesson and Javed).  A simulation with load aggregation and the g-function, while all loads are in cells of one time step: the result is the temperature of the field with the
same loads. -/
theorem claesson_javed_field {N : ℕ} {H : Fin N → ℝ} {F : Fin N → Fin N → ℝ → ℝ} {d : ℝ} {M : ℕ} {g : List ℝ}
    (hg : ∀ P q T, WallHistory H F d M P q T → ∀ k ≤ M, T k = ∑ l ∈ Finset.range (k + 1), change P l * g.getD (k - l) 0) {c : ℕ} (w : Fin (c + 1) → ℝ) (ops : List (Op ℝ Unit))
    (hp : Proper ops) {k : ℕ} (hlen : (hist ops).length = k + 1) (hkM : k ≤ M) (hkc : k ≤ c) (hunit : ∀ u : Fin (c + 1), u.val ≤ k → w u = 1) {q : ℕ → Fin N → ℝ} {T : ℕ → ℝ}
    (hT : WallHistory H F d M (fun l => ((hist ops).map fun l => l ()).getD (k - l) 0) q T) :
    CJ.temporalSuperposition (CJ.increments fun _ _ u => g.getD u.val 0) (CJ.run w ops) () = T k := by
  rw [CJ.cj_exact_unit_cells w (fun _ _ u => g.getD u 0) ops hp (by omega) (fun u hu => hunit u (by omega)) (), hg _ q T hT k hkM, changes_superpose (fun u => g.getD u 0) _ (by simpa using hlen)]
  simp

/-- **C145** (MLAA).  A simulation with the MLAA scheme and the g-function stays within the error of the averages of the loads from the temperature of the field with the same loads. -/
theorem mlaa_field {N : ℕ} {H : Fin N → ℝ} {F : Fin N → Fin N → ℝ → ℝ} {d : ℝ} {M : ℕ} {g : List ℝ}
    (hg : ∀ P q T, WallHistory H F d M P q T → ∀ k ≤ M, T k = ∑ l ∈ Finset.range (k + 1), change P l * g.getD (k - l) 0) (A : MLAA.Params) (h0 : 1 ≤ A.N0) (h1 : 1 ≤ A.N1)
    (h2 : 1 ≤ A.N2) (h3 : 1 ≤ A.N3) {V : ℕ → ℕ → ℝ} (hV : Varies (pulse fun u => g.getD u 0) V) (ops : List (Op ℝ Unit)) (hp : Proper ops) {k : ℕ} (hlen : (hist ops).length = k + 1)
    (hkM : k ≤ M) (hN : k < A.Nt) {lo hi : ℝ} (hb : ∀ l ∈ hist ops, lo ≤ l () ∧ l () ≤ hi) {q : ℕ → Fin N → ℝ} {T : ℕ → ℝ}
    (hT : WallHistory H F d M (fun l => ((hist ops).map fun l => l ()).getD (k - l) 0) q T) :
    ∃ σ S, MLAA.run A ops = some σ ∧ MLAA.temporalSuperposition A (fun _ _ u => g.getD u 0) σ = some S ∧
      |S () - T k| ≤ (hi - lo) * blockError V 0 (MLAA.blockSizes A (k + 1)) := by
  have hne : ops ≠ [] := fun h => by rw [h] at hlen; simp [hist] at hlen
  obtain ⟨σ, S, e1, e2, e3⟩ := MLAA.mlaa_error A h0 h1 h2 h3 (fun _ _ u => g.getD u 0) (fun _ _ => V) (fun _ _ => hV) ops hp hne (by omega) (fun _ => lo) (fun _ => hi) (fun l hl _ => hb l hl)
  refine ⟨σ, S, e1, e2, ?_⟩
  have := e3 ()
  rw [hlen] at this
  rw [hg _ q T hT k hkM, changes_superpose (fun u => g.getD u 0) _ (by simpa using hlen)]
  simpa using this

/-- A bound of the variation of any sequence over a block. -/
noncomputable def stepSpread (d : ℕ → ℝ) (s b : ℕ) : ℝ := ∑ k ∈ Finset.Ico s (s + b), ∑ k' ∈ Finset.Ico s (s + b), |d k - d k'|

theorem stepSpread_varies (d : ℕ → ℝ) : Varies d (stepSpread d) := fun s b k k' h1 h2 h3 h4 =>
  (Finset.single_le_sum (f := fun k' => |d k - d k'|) (fun _ _ => abs_nonneg _) (Finset.mem_Ico.mpr ⟨h3, h4⟩)).trans
    (Finset.single_le_sum (f := fun k => ∑ k' ∈ Finset.Ico s (s + b), |d k - d k'|) (fun _ _ => Finset.sum_nonneg fun _ _ => abs_nonneg _) (Finset.mem_Ico.mpr ⟨h1, h2⟩))

/-- Two boreholes with three and two segments, hourly loads that change sign. -/
example : ∃ g Qs, temperatureDetailed lineKernel pairRow [3, 2] [[1 / 4, 1 / 2, 1 / 4], [1 / 3, 2 / 3]] (3600 :: uniform 3600 3600 5) 3600 = some (g, Qs) ∧
    ∃ q T, WallHistory (segmentLengths pairRow [3, 2] [[1 / 4, 1 / 2, 1 / 4], [1 / 3, 2 / 3]]) (segmentResponse (1 / 10 ^ 6) pairRow [3, 2] [[1 / 4, 1 / 2, 1 / 4], [1 / 3, 2 / 3]]) 3600 5
        (fun l => [3, -1, 2].getD (2 - l) 0) q T ∧ T 1 = 2 * g.getD 1 0 - 3 * g.getD 0 0 ∧
      CJ.temporalSuperposition (CJ.increments fun _ _ u => g.getD u.val 0) (CJ.run (fun _ : Fin 5 => (1 : ℝ)) [.next, .set fun _ => 2, .next, .set fun _ => -1, .next, .set fun _ => 3]) () = T 2 ∧
      ∃ σ S, MLAA.run ⟨8, 2, 1, 2, 1⟩ [.next, .set fun _ => 2, .next, .set fun _ => -1, .next, .set fun _ => 3] = some σ ∧
        MLAA.temporalSuperposition ⟨8, 2, 1, 2, 1⟩ (fun (_ _ : Unit) u => g.getD u 0) σ = some S ∧
        |S () - T 2| ≤ (3 - (-1)) * blockError (stepSpread (pulse fun u => g.getD u 0)) 0 (MLAA.blockSizes ⟨8, 2, 1, 2, 1⟩ 3) := by
  have hsp : Splits pairRow [3, 2] [[1 / 4, 1 / 2, 1 / 4], [1 / 3, 2 / 3]] := by
    refine ⟨⟨?_, ?_⟩, ?_, ?_⟩ <;> norm_num [pairRow]
  obtain ⟨g, Qs, h1, h2⟩ := field_simulation (alpha := 1 / 10 ^ 6) (K := lineKernel) (by norm_num) (fun _ _ _ => rfl) pairRow_upright hsp pairRow_spaced (d := 3600) (by norm_num) 5 (thr := 3600)
    (by norm_num) le_rfl
  obtain ⟨⟨q, T, hT⟩, hall⟩ := h2 fun l => [3, -1, 2].getD (2 - l) 0
  refine ⟨g, Qs, h1, q, T, hT, ?_, ?_, ?_⟩
  · rw [hall q T hT 1 (by norm_num), Finset.sum_range_succ, Finset.sum_range_one]
    norm_num [change]
    ring
  · refine claesson_javed_field (k := 2) (M := 5) (fun P => (h2 P).2) _ _ (by simp [Proper]) (by simp [hist, histStep]) (by norm_num) (by norm_num) (fun _ _ => rfl) (q := q) ?_
    simpa [hist, histStep] using hT
  · refine mlaa_field (k := 2) (M := 5) (fun P => (h2 P).2) _ (by decide) (by decide) (by decide) (by decide) (stepSpread_varies _) _ (by simp [Proper]) (by simp [hist, histStep]) (by norm_num)
      (by norm_num) (by simp [hist, histStep]; norm_num) (q := q) ?_
    simpa [hist, histStep] using hT

/-- Two pairs of boreholes in series, with a mixed inlet temperature. -/
example : ∃ g Qs Ts, mixedNetwork lineKernel fieldRow [2, 2, 2, 2] quarters (some [-1, 0, -1, 2]) rowPipe 2 [2, 3] 4 (3600 :: uniform 3600 3600 119) 3600 = some (g, Qs, Ts) ∧
    ∃ ki R, netInlet pairs (fun i => rowPipe i (quarters.getD i [])) pairFlow = some ki ∧ ∃ q T Tin,
      NetworkHistory pairs pairFlow (fun i => rowPipe i (quarters.getD i [])) ki (segments_total quarters_splits.consistent) 2 (segmentLengths fieldRow [2, 2, 2, 2] quarters)
        (segmentResponse (1 / 10 ^ 6) fieldRow [2, 2, 2, 2] quarters) 3600 119 (fun k => (-1) ^ k) q T Tin ∧
      ∀ Tout, 20 * (Tin 1 - Tout) = -(4 * Real.pi * ∑ i, segmentLengths fieldRow [2, 2, 2, 2] quarters i) →
        (Tin 1 + Tout) / 2 + 4 * Real.pi * R = g.getD 1 0 - 2 * g.getD 0 0 := by
  obtain ⟨hpos, hs⟩ := uniform_grid (d := 3600) (by norm_num) 119
  obtain ⟨⟨g, Qs, Ts⟩, hr⟩ := tube_network_returns (alpha := 1 / 10 ^ 6) (K := lineKernel) (by norm_num) (fun _ _ _ => rfl) fieldRow_upright quarters_splits fieldRow_spaced hpos hs (thr := 3600)
    (by norm_num) pairs_ok (ks := 2) (by norm_num) (cp := 4) (by norm_num) pairFlow_ok pairs_flow fun i => Or.inl (rowPipe_tube i).tube
  obtain ⟨ki, R, hki, -, hall⟩ := network_simulation (alpha := 1 / 10 ^ 6) (fun _ _ _ => rfl) fieldRow_upright quarters_splits pairs_ok (by norm_num) pairFlow_ok (by norm_num) 119 le_rfl hr
  obtain ⟨⟨q, T, Tin, hN⟩, hall⟩ := hall fun k => (-1) ^ k
  refine ⟨g, Qs, Ts, hr, ki, R, hki, q, T, Tin, hN, fun Tout hT => ?_⟩
  have := hall q T Tin hN 1 (by norm_num) Tout (by norm_num) (by norm_num; linarith)
  rw [Finset.sum_range_succ, Finset.sum_range_one] at this
  norm_num [change] at this
  rw [List.getD_eq_getElem?_getD, List.getD_eq_getElem?_getD]
  linarith

end Verif.Gf
