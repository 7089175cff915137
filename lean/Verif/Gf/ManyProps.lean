import Verif.Gf.ManyModel
import Verif.Gf.MeanFailProps

/-!
# g-functions for several mass flow rates (C139)
-/

noncomputable section

namespace Verif.Gf

open Bore Sol Net FLS

/-! ### The solver -/

section solver

variable {n k : ℕ} {H : Fin n → ℝ} {ops : Fin k → Op n} {resp : List ℝ → Fin n → Fin n → List ℝ} {time : List ℝ} {thr : ℝ}

theorem timeLong_above (hp : pLong time thr = 0) : timeLong time thr = time := by
  unfold timeLong
  rw [hp]
  simp

theorem linearize_above (hp : pLong time thr = 0) (x : List ℝ) : linearize time thr x = x := by
  unfold linearize
  rw [hp]
  simp

/-- Several flow rates return exactly when each one does, if no time is under the threshold; the values on the diagonal and the wall temperatures are those of one flow rate. -/
theorem miftMany_runs (hp : pLong time thr = 0) {g : Fin k → Fin k → List ℝ} {Ts : Fin k → Fin n → List ℝ} :
    miftMany H ops resp time thr = some (g, Ts) ↔ ∃ l : Fin k → List (MiftState n), (∀ j, miftLoop H (ops j).flow time (resp time) time.length = some (l j)) ∧
      g = crossValues H ops l ∧ Ts = fun j b => (l j).map fun x => x.T b := by
  unfold miftMany
  rw [timeLong_above hp]
  cases e : allSome fun j => miftLoop H (ops j).flow time (resp time) time.length with
  | none =>
    simp only [reduceCtorEq, false_iff]
    rintro ⟨l, hl, -⟩
    rw [allSome_iff.mpr hl] at e
    simp at e
  | some l =>
    dsimp only
    rw [if_neg (by omega)]
    have hl := allSome_iff.mp e
    constructor
    · intro h
      obtain ⟨rfl, rfl⟩ := Prod.mk.inj (Option.some.inj h)
      exact ⟨l, hl, rfl, rfl⟩
    · rintro ⟨l', hl', rfl, rfl⟩
      have : l' = l := funext fun j => Option.some.inj ((hl' j).symm.trans (hl j))
      rw [this]

theorem mift_run (hp : pLong time thr = 0) {f : Flow n} {l : List (MiftState n)} (h : miftLoop H f time (resp time) time.length = some l) :
    mift H f resp time thr = some (l.map MiftState.g, linearizeQ time thr (l.map MiftState.Q), fun i => l.map fun x => x.T i) := by
  unfold mift
  rw [timeLong_above hp]
  dsimp only
  rw [h]
  dsimp only
  rw [linearize_above hp]
  simp only [linearize_above hp]

theorem run_mift (hp : pLong time thr = 0) {f : Flow n} {out : List ℝ × List (Fin n → ℝ) × (Fin n → List ℝ)} (h : mift H f resp time thr = some out) :
    ∃ l, miftLoop H f time (resp time) time.length = some l := by
  unfold mift at h
  rw [timeLong_above hp] at h
  dsimp only at h
  cases e : miftLoop H f time (resp time) time.length with
  | none => rw [e] at h; simp at h
  | some l => exact ⟨l, rfl⟩

/-- The values are averages of the wall temperatures when those of every step and of every other flow rate are. -/
theorem miftMany_average (hp : pLong time thr = 0) {g : Fin k → Fin k → List ℝ} {Ts : Fin k → Fin n → List ℝ} (h : miftMany H ops resp time thr = some (g, Ts)) {w : Fin k → Fin n → ℝ}
    (hc : ∀ i T, crossG (∑ a, H a) (ops i).flow (ops i).netIn (ops i).netB T = ∑ a, w i a * T a)
    (hs : ∀ i past p x, miftStep H (ops i).flow time (resp time) past p = some x → x.g = ∑ a, w i a * x.T a) (i j : Fin k) :
    (g i j).length = time.length ∧ ∀ q < time.length, ∃ (v : ℝ) (T : Fin n → ℝ), (g i j)[q]? = some v ∧ (∀ a, (Ts j a)[q]? = some (T a)) ∧ v = ∑ a, w i a * T a := by
  obtain ⟨l, hl, rfl, rfl⟩ := (miftMany_runs hp).mp h
  obtain ⟨hlen, hst⟩ := miftLoop_spec (hl j)
  refine ⟨by unfold crossValues; split_ifs <;> simp [hlen], fun q hq => ?_⟩
  obtain ⟨x, hx⟩ : ∃ x, (l j)[q]? = some x := ⟨_, List.getElem?_eq_getElem (by omega)⟩
  refine ⟨∑ a, w i a * x.T a, x.T, ?_, fun a => by rw [List.getElem?_map, hx]; rfl, rfl⟩
  unfold crossValues
  split_ifs with hij
  · subst hij
    rw [List.getElem?_map, hx, Option.map_some, hs i _ q x (hst q x hx)]
  · rw [List.getElem?_map, hx, Option.map_some, hc]

end solver

/-! ### The network -/

variable {bs : List Borehole} {ns : List ℕ} {rs : List (List ℝ)} {conn : Option (List ℤ)} {t : Topology}

/-- What the network at one flow rate is made of. -/
theorem networkOp_parts (ht : construct bs.length conn = .ok t) (hlen : ∑ i : Fin bs.length, (rs.getD i []).length = (segmentList bs ns rs).length)
    (pipe : Fin bs.length → (r : List ℝ) → Net.Pipe r.length) (ks : ℝ) {m : List ℝ} {cp : ℝ} {f : Formatted} (hf : format t m [cp] = .ok f) : ∃ ki k1 ko1 fl,
      netInlet t (fun i => pipe i (rs.getD i [])) f = some ki ∧ netInlet t (fun i => pipe i [1]) f = some k1 ∧ netOutlet t (fun i => pipe i [1]) f = some ko1 ∧
      fl = netFlow hlen (boreHeat t (fun i => pipe i (rs.getD i [])) f ki) ((m.map fun a => |a| * cp).sum)
        (netResistance (bs.map Borehole.H).sum (netMixed (mixing (flowOutlets t f) f.mIn) ko1) (netHeat (fluidHeat t (fun i => pipe i [1]) f k1))) ks (segmentLengths bs ns rs) ∧
      networkFlow bs ns rs t pipe ks m cp = some fl ∧
      networkOp bs ns rs t pipe ks m cp = some ⟨fl, (netHeat (fluidHeat t (fun i => pipe i (rs.getD i [])) f ki)).aIn (),
        fun b => (netHeat (fluidHeat t (fun i => pipe i (rs.getD i [])) f ki)).aB () ((segPlace hlen).symm b)⟩ := by
  obtain ⟨ki, ko, hki, -, -⟩ := network_temperatures ht (fun i => pipe i (rs.getD i [])) f
  obtain ⟨k1, ko1, hk1, hko1, -⟩ := network_temperatures ht (fun i => pipe i [1]) f
  have hfl : networkFlow bs ns rs t pipe ks m cp = some (netFlow hlen (boreHeat t (fun i => pipe i (rs.getD i [])) f ki) ((m.map fun a => |a| * cp).sum)
        (netResistance (bs.map Borehole.H).sum (netMixed (mixing (flowOutlets t f) f.mIn) ko1) (netHeat (fluidHeat t (fun i => pipe i [1]) f k1))) ks (segmentLengths bs ns rs)) := by
    unfold networkFlow fieldResistance
    rw [hf]
    dsimp only
    rw [hki, hk1, hko1]
    dsimp only
    rw [dif_pos hlen]
  refine ⟨ki, k1, ko1, _, hki, hk1, hko1, rfl, hfl, ?_⟩
  unfold networkOp
  rw [hfl]
  dsimp only
  rw [hf]
  dsimp only
  rw [hki]
  dsimp only
  rw [dif_pos hlen]

/-- Specification: walls at the uniform temperature `Σ w T` give the network at the flow rate `m` the same heat as walls at the temperatures `T`, for every inlet temperature. -/
structure Weights (bs : List Borehole) (ns : List ℕ) (rs : List (List ℝ)) (t : Topology) (pipe : Fin bs.length → (r : List ℝ) → Net.Pipe r.length) (cp : ℝ) (m : List ℝ)
    (w : Fin (segmentList bs ns rs).length → ℝ) : Prop where
  nonneg : ∀ a, 0 ≤ w a
  one : ∑ a, w a = 1
  heat : ∀ (hlen : ∑ i : Fin bs.length, (rs.getD i []).length = (segmentList bs ns rs).length) f ki, format t m [cp] = .ok f →
    netInlet t (fun i => pipe i (rs.getD i [])) f = some ki → ∀ Tin (T : Fin (segmentList bs ns rs).length → ℝ),
      totalHeat t (fun i => pipe i (rs.getD i [])) f ki Tin (fun s => T (segPlace hlen s)) = totalHeat t (fun i => pipe i (rs.getD i [])) f ki Tin fun _ => ∑ a, w a * T a

section one

variable {rb : ℝ} (hU : Upright rb bs) (h : Splits bs ns rs) (ht : construct bs.length conn = .ok t)
  {pipe : Fin bs.length → (r : List ℝ) → Net.Pipe r.length} {ks : ℝ} (hks : 0 < ks) {m : List ℝ} {cp : ℝ} (hcp : 0 < cp) {f : Formatted} (hf : format t m [cp] = .ok f)
  (hflow : ∀ i : Fin bs.length, mBore t f i ≠ 0)
  (hp : ∀ i, (pipe i (rs.getD i [])).Thermal (mBore t f i) cp) (hw : ∀ i, (pipe i (rs.getD i [])).Weighted (mBore t f i) cp)
  (hp1 : ∀ i, (pipe i [1]).Thermal (mBore t f i) cp) (hA : ∀ i, (pipe i (rs.getD i [])).outA (mBore t f i) cp = (pipe i [1]).outA (mBore t f i) cp)
  (ha : Net.Aligned t f)
include hU h ht hks hcp hf hflow hp hw hp1 hA ha

/-- At one flow rate, the value from the wall temperatures of any run, and that of its own steps, is the average of the wall temperatures. -/
theorem op_average : ∃ (w : Fin (segmentList bs ns rs).length → ℝ) (op : Op (segmentList bs ns rs).length), Weights bs ns rs t pipe cp m w ∧ networkFlow bs ns rs t pipe ks m cp = some op.flow ∧
    networkOp bs ns rs t pipe ks m cp = some op ∧ (∀ T, crossG (∑ a, segmentLengths bs ns rs a) op.flow op.netIn op.netB T = ∑ a, w a * T a) ∧
    ∀ tl y past p x, miftStep (segmentLengths bs ns rs) op.flow tl y past p = some x → x.g = ∑ a, w a * x.T a := by
  have hlen := segments_total h.consistent
  have hfc := format_cp hf
  obtain ⟨-, -, hv, hin, -, hni, -⟩ := construct_ok ht
  have hn0 : 0 < t.nInlets := by
    obtain ⟨-, -, -, -, -, hc, -⟩ := circuits_decompose _ conn t ht
    obtain ⟨k, hk, -⟩ := hc 0 hv.pos
    omega
  obtain ⟨ki, k1, ko1, fl, hki, hk1, hko1, hfl, hnf, hop⟩ := networkOp_parts (ns := ns) ht hlen pipe ks hf
  have hp' : ∀ i, ((fun i => pipe i (rs.getD i [])) i).Thermal (mBore t f i) f.cp := fun i => by rw [hfc]; exact hp i
  have hw' : ∀ i, ((fun i => pipe i (rs.getD i [])) i).Weighted (mBore t f i) f.cp := fun i => by rw [hfc]; exact hw i
  have hp1' : ∀ i, ((fun i => pipe i [1]) i).Thermal (mBore t f i) f.cp := fun i => by rw [hfc]; exact hp1 i
  have hcp' : 0 < f.cp := by rw [hfc]; exact hcp
  obtain ⟨w, w0, w1, hheat⟩ := network_mean ht _ f hp' hw' (format_ok hf).1 hcp' hflow hki
  have hC := conductance_pos ht _ f hp' hw' hcp' hflow hki
  have hCC := conductance_segments ht _ f hp' _ hp1' (fun i => by rw [hfc]; exact hA i) hki hk1
  have hS : 0 < (f.mIn.map abs).sum := by
    rw [← inlet_total ht f (format_ok hf).1]
    obtain ⟨rank, hrank⟩ := fedBy_rank ht f
    obtain ⟨i, -, hi⟩ := Finset.exists_min_image (Finset.univ : Finset (Fin bs.length)) rank ⟨⟨0, hv.pos⟩, Finset.mem_univ _⟩
    refine Finset.sum_pos' (fun j _ => by split_ifs <;> positivity) ⟨i, Finset.mem_univ i, ?_⟩
    rw [if_pos ((flowInlets_iff ht f i).mpr fun j hj => absurd (hi j (Finset.mem_univ j)) (not_le.mpr (hrank i j hj)))]
    exact abs_pos.mpr (hflow i)
  have htot : ∑ i, segmentLengths bs ns rs i = (bs.map Borehole.H).sum := by
    rw [← segmentList_H h]
    exact Fin.sum_univ_fun_getElem _ Borehole.H
  have hHpos : ∀ i, 0 < segmentLengths bs ns rs i := by
    obtain ⟨bore, hst, -⟩ := segment_data hU h
    exact hst.len
  have hresp := mixed_response ht (fun i => pipe i [1]) f hp1' (format_ok hf).1 hS.ne' ha hk1 hko1
  have havg : ∀ T : Fin (segmentList bs ns rs).length → ℝ, ∑ s, w s * T (segPlace hlen s) = ∑ i, w ((segPlace hlen).symm i) * T i := fun T => by
    rw [← (segPlace hlen).sum_comp]
    exact Finset.sum_congr rfl fun s _ => by rw [Equiv.symm_apply_apply]
  have hsum : ∑ i, w ((segPlace hlen).symm i) = 1 := by
    rw [← (segPlace hlen).sum_comp]
    simpa only [Equiv.symm_apply_apply] using w1
  -- the effective temperature from an inlet temperature that gives the heat
  have heff : ∀ Tin (T : Fin (segmentList bs ns rs).length → ℝ), conductance t (fun i => pipe i (rs.getD i [])) f ki * (∑ i, w ((segPlace hlen).symm i) * T i - Tin)
      = -(2 * Real.pi * ks * (bs.map Borehole.H).sum) → effective (∑ i, segmentLengths bs ns rs i) fl Tin = ∑ i, w ((segPlace hlen).symm i) * T i := by
    intro Tin T hb
    rw [hfl]
    unfold effective netFlow netResistance
    dsimp only
    rw [heat_response _ f hp1', ← hCC, htot, format_total hn0 hf]
    refine (effective_average hC.ne' (mul_pos hS hcp).ne' hU.total.ne' hks.ne' hb).mpr ?_
    rw [← hCC, hfc] at hresp
    exact hresp
  refine ⟨fun i => w ((segPlace hlen).symm i), _, ⟨fun i => w0 _, hsum, ?_⟩, hnf, hop, ?_, ?_⟩
  · intro hl f' ki' hf' hki' Tin T
    rw [hf] at hf'
    cases hf'
    rw [hki, Option.some.injEq] at hki'
    subst hki'
    rw [hheat, hheat, havg, ← Finset.sum_mul, w1, one_mul]
  · intro T
    unfold crossG
    dsimp only
    refine heff _ T ?_
    have hin : (netHeat (fluidHeat t (fun i => pipe i (rs.getD i [])) f ki)).aIn () = -conductance t (fun i => pipe i (rs.getD i [])) f ki := heat_response _ f hp'
    have hB : ∑ j, (netHeat (fluidHeat t (fun i => pipe i (rs.getD i [])) f ki)).aB () ((segPlace hlen).symm j) * T j
        = conductance t (fun i => pipe i (rs.getD i [])) f ki * ∑ i, w ((segPlace hlen).symm i) * T i := by
      have h0 := hheat 0 fun s => T (segPlace hlen s)
      rw [totalHeat_fluid _ f hp', havg, sub_zero] at h0
      rw [← h0, ← (segPlace hlen).sum_comp]
      simp only [Equiv.symm_apply_apply, Coef.eval, Matrix.mulVec, dotProduct, mul_zero, zero_add]
    rw [hin, hB, hfl]
    unfold netFlow
    dsimp only
    rw [htot]
    field_simp
    ring
  · intro tl y past p x hx
    dsimp only at hx
    rw [hfl] at hx
    obtain ⟨-, hbal, -⟩ := mift_balance hx hks.ne' (fun i => (hHpos i).ne') (fun _ => 1) fun i => (one_mul _).symm
    simp only [one_mul] at hbal
    rw [netFlow_heat, hheat, havg, htot] at hbal
    obtain ⟨-, -, -, -, -, -, hg⟩ := miftStep_spec hx
    rw [hg, ← hfl]
    exact heff _ _ hbal

end one

/-! ### The network at several flow rates -/

/-- Specification: at the flow rate `m` every borehole has a flow, holds a U-tube, several or a coaxial exchanger, and the outlets carry the flow rates in the order of the circuits. -/
def Operates (bs : List Borehole) (t : Topology) (pipe : Fin bs.length → (r : List ℝ) → Net.Pipe r.length) (cp : ℝ) (m : List ℝ) : Prop :=
  ∃ f, format t m [cp] = .ok f ∧ (∀ i : Fin bs.length, mBore t f i ≠ 0) ∧
    (∀ i : Fin bs.length, TubeIn bs[i] (pipe i) (mBore t f i) ∨ MultipleIn bs[i] (pipe i) (mBore t f i) cp) ∧ Net.Aligned t f

section many

variable {k : ℕ} {K : ℝ → Bool → Borehole → Borehole → ℝ} {rb : ℝ} (hU : Upright rb bs) (h : Splits bs ns rs) (ht : construct bs.length conn = .ok t)
  {pipe : Fin bs.length → (r : List ℝ) → Net.Pipe r.length} {ks : ℝ} (hks : 0 < ks) {cp : ℝ} (hcp : 0 < cp) {ms : Fin k → List ℝ}
  {time : List ℝ} {thr : ℝ} {g : Fin k → Fin k → List ℝ} {Ts : Fin k → Fin (segmentList bs ns rs).length → List ℝ}

include hU h ht hks hcp in
theorem operates_average {m : List ℝ} (ho : Operates bs t pipe cp m) : ∃ (w : Fin (segmentList bs ns rs).length → ℝ) (op : Op (segmentList bs ns rs).length),
    Weights bs ns rs t pipe cp m w ∧ networkFlow bs ns rs t pipe ks m cp = some op.flow ∧
    networkOp bs ns rs t pipe ks m cp = some op ∧ (∀ T, crossG (∑ a, segmentLengths bs ns rs a) op.flow op.netIn op.netB T = ∑ a, w a * T a) ∧
    ∀ tl y past p x, miftStep (segmentLengths bs ns rs) op.flow tl y past p = some x → x.g = ∑ a, w a * x.T a := by
  obtain ⟨f, hf, hflow, hp, ha⟩ := ho
  have hl : rs.length = bs.length := by rw [← h.consistent.segs, ← h.consistent.ratios, List.length_map]
  have hmem : ∀ i : Fin bs.length, rs.getD i [] ∈ rs := fun i => by
    have hi : (i : ℕ) < rs.length := by have := i.isLt; omega
    rw [List.getD_eq_getElem _ _ hi]; exact List.getElem_mem _
  have hH : ∀ i : Fin bs.length, 0 < bs[i].H := fun i => hU.H _ (List.getElem_mem _)
  have hp' : ∀ i : Fin bs.length, UTubeIn bs[i] (pipe i) (mBore t f i) ∨ MultipleIn bs[i] (pipe i) (mBore t f i) cp := fun i => (hp i).imp_left TubeIn.tube
  have hpw := fun i : Fin bs.length => piped_weighted (hflow i) hcp (hH i) (hp i) (h.pos _ (hmem i)) (h.sum _ (hmem i))
  exact op_average hU h ht hks hcp hf hflow (fun i => piped_thermal (hflow i) hcp (hH i) (hp' i) (h.pos _ (hmem i)) (h.sum _ (hmem i))) (fun i => (hpw i).1)
    (fun i => piped_thermal (hflow i) hcp (hH i) (hp' i) (by simp) (by simp)) (fun i => (hpw i).2) ha

include ht in
theorem mixedMany_parts (hr : mixedMany K bs ns rs conn pipe ks ms cp time thr = some (g, Ts)) : ∃ ops, (∀ j, networkOp bs ns rs t pipe ks (ms j) cp = some (ops j)) ∧
    (∀ t ∈ timeLong time thr, (detailed (K t) bs ns rs).isSome) ∧ miftMany (segmentLengths bs ns rs) ops (responses K bs ns rs) time thr = some (g, Ts) := by
  unfold mixedMany at hr
  rw [ht] at hr
  dsimp only at hr
  cases e : allSome fun j => networkOp bs ns rs t pipe ks (ms j) cp with
  | none => rw [e] at hr; simp at hr
  | some ops =>
    rw [e] at hr
    dsimp only at hr
    split_ifs at hr with hd
    exact ⟨ops, allSome_iff.mp e, hd, hr⟩

include hU h ht hks hcp in
/-- **C139** (the part that holds).  With all times over the threshold, the value `g i j` at every time is an average of the wall temperatures of the run at the flow rate `j`, with weights
that depend on the flow rate `i` only: the uniform wall temperature from which the network at the flow rate `i` would extract the same heat.  Missing: times under the threshold, where the
evaluation raises or gives other values (`many_raises`, C79), and outlets in another order than the circuits with different flow rates (C35). -/
theorem many_average_partial (ho : ∀ j, Operates bs t pipe cp (ms j)) (hp : pLong time thr = 0) (hr : mixedMany K bs ns rs conn pipe ks ms cp time thr = some (g, Ts)) :
    ∃ W : List ℝ → Fin (segmentList bs ns rs).length → ℝ, (∀ i, Weights bs ns rs t pipe cp (ms i) (W (ms i))) ∧
      ∀ i j, (g i j).length = time.length ∧ ∀ q < time.length, ∃ (v : ℝ) (T : Fin (segmentList bs ns rs).length → ℝ),
        (g i j)[q]? = some v ∧ (∀ a, (Ts j a)[q]? = some (T a)) ∧ v = ∑ a, W (ms i) a * T a := by
  obtain ⟨ops, hops, -, hm⟩ := mixedMany_parts ht hr
  have key : ∀ m, ∃ w : Fin (segmentList bs ns rs).length → ℝ, m ∈ Set.range ms → Weights bs ns rs t pipe cp m w ∧ ∃ op, networkOp bs ns rs t pipe ks m cp = some op ∧
      (∀ T, crossG (∑ a, segmentLengths bs ns rs a) op.flow op.netIn op.netB T = ∑ a, w a * T a) ∧
      ∀ tl y past p x, miftStep (segmentLengths bs ns rs) op.flow tl y past p = some x → x.g = ∑ a, w a * x.T a := by
    intro m
    by_cases hm : m ∈ Set.range ms
    · obtain ⟨i, rfl⟩ := hm
      obtain ⟨w, op, hw, -, hop, hc, hs⟩ := operates_average (ns := ns) (rs := rs) hU h ht hks hcp (ho i)
      exact ⟨w, fun _ => ⟨hw, op, hop, hc, hs⟩⟩
    · exact ⟨0, fun hm' => absurd hm' hm⟩
  choose W hW using key
  have hW' : ∀ i, (∀ T, crossG (∑ a, segmentLengths bs ns rs a) (ops i).flow (ops i).netIn (ops i).netB T = ∑ a, W (ms i) a * T a) ∧
      ∀ tl y past p x, miftStep (segmentLengths bs ns rs) (ops i).flow tl y past p = some x → x.g = ∑ a, W (ms i) a * x.T a := by
    intro i
    obtain ⟨-, op, hop, hc, hs⟩ := hW (ms i) ⟨i, rfl⟩
    rw [hops i, Option.some.injEq] at hop
    subst hop
    exact ⟨hc, hs⟩
  exact ⟨W, fun i => (hW _ ⟨i, rfl⟩).1, miftMany_average hp hm (fun i => (hW' i).1) fun i past p x => (hW' i).2 _ _ past p x⟩

include ht in
/-- **C139.**  With all times over the threshold, the values `g j j` and the wall temperatures `Ts j` are those of the network at the flow rate `j` alone. -/
theorem many_diagonal (hp : pLong time thr = 0) (hr : mixedMany K bs ns rs conn pipe ks ms cp time thr = some (g, Ts)) (j : Fin k) :
    ∃ Qs, mixedNetwork K bs ns rs conn pipe ks (ms j) cp time thr = some (g j j, Qs, Ts j) := by
  obtain ⟨ops, hops, hd, hm⟩ := mixedMany_parts ht hr
  obtain ⟨l, hl, rfl, rfl⟩ := (miftMany_runs hp).mp hm
  have hfl : networkFlow bs ns rs t pipe ks (ms j) cp = some (ops j).flow := by
    have := hops j
    unfold networkOp at this
    split at this
    · simp at this
    · rename_i fl e
      split at this
      · simp at this
      · split at this
        · simp at this
        · split_ifs at this
          rw [e, ← Option.some.inj this]
  refine ⟨linearizeQ time thr ((l j).map MiftState.Q), ?_⟩
  unfold mixedNetwork mixedDetailed
  rw [ht]
  dsimp only
  rw [hfl]
  dsimp only
  rw [if_pos hd, mift_run hp (hl j)]
  unfold crossValues
  rw [if_pos rfl]

include hU h ht hks hcp in
/-- **C139** (the part that holds).  Two flow rates that are equal have the same values, whatever the flow rate of the run. -/
theorem many_same_partial (ho : ∀ j, Operates bs t pipe cp (ms j)) (hp : pLong time thr = 0) (hr : mixedMany K bs ns rs conn pipe ks ms cp time thr = some (g, Ts))
    {i i' j j' : Fin k} (hi : ms i = ms i') (hj : ms j = ms j') : g i j = g i' j' ∧ Ts j = Ts j' := by
  obtain ⟨W, -, hg⟩ := many_average_partial hU h ht hks hcp ho hp hr
  have hT : Ts j = Ts j' := by
    obtain ⟨Q, h1⟩ := many_diagonal ht hp hr j
    obtain ⟨Q', h2⟩ := many_diagonal ht hp hr j'
    rw [hj, h2, Option.some.injEq, Prod.mk.injEq, Prod.mk.injEq] at h1
    exact h1.2.2.symm
  refine ⟨List.ext_getElem? fun q => ?_, hT⟩
  obtain ⟨h1, hv⟩ := hg i j
  obtain ⟨h2, hv'⟩ := hg i' j'
  by_cases hq : q < time.length
  · obtain ⟨v, T, e1, e2, e3⟩ := hv q hq
    obtain ⟨v', T', e1', e2', e3'⟩ := hv' q hq
    have : T = T' := funext fun a => by
      have := e2 a
      rw [hT, e2' a] at this
      exact (Option.some.inj this).symm
    rw [e1, e1', e3, e3', hi, this]
  · rw [List.getElem?_eq_none (by omega), List.getElem?_eq_none (by omega)]

include hU h ht hks hcp in
/-- **C139** (the part that holds).  Every value is between two wall temperatures of the run at the same time. -/
theorem many_between_partial (ho : ∀ j, Operates bs t pipe cp (ms j)) (hp : pLong time thr = 0) (hr : mixedMany K bs ns rs conn pipe ks ms cp time thr = some (g, Ts))
    (i j : Fin k) {q : ℕ} {v : ℝ} (hv : (g i j)[q]? = some v) : ∃ a b x y, (Ts j a)[q]? = some x ∧ (Ts j b)[q]? = some y ∧ x ≤ v ∧ v ≤ y := by
  obtain ⟨W, hW, hg⟩ := many_average_partial hU h ht hks hcp ho hp hr
  obtain ⟨hlen, hvals⟩ := hg i j
  have hq : q < time.length := by
    rw [← hlen]
    exact (List.getElem?_eq_some_iff.mp hv).1
  obtain ⟨v', T, e1, e2, e3⟩ := hvals q hq
  rw [hv, Option.some.injEq] at e1
  subst e1
  obtain ⟨a, b, ha, hb⟩ := average_between (W (ms i)) T (hW i).nonneg (hW i).one
  exact ⟨a, b, T a, T b, e2 a, e2 b, by rw [e3]; exact ha, by rw [e3]; exact hb⟩

include hU h ht hks hcp in
/-- **C139.**  With all times over the threshold, and at flow rates in any number, the g-functions are found. -/
theorem many_returns {alpha : ℝ} (hal : 0 < alpha) (hK : ∀ t s r, K t true s r = fls t alpha (pairOf s r) true true) (hsp : Spaced rb bs)
    (hpos : ∀ t ∈ time, 0 < t) (hs : time.Pairwise (· < ·)) (hthr : 0 < thr) (ho : ∀ j, Operates bs t pipe cp (ms j)) (hp : pLong time thr = 0) (hk : 0 < k) :
    ∃ out, mixedMany K bs ns rs conn pipe ks ms cp time thr = some out := by
  choose w op hw hfl hop hc hst using fun j => operates_average (ns := ns) (rs := rs) hU h ht hks hcp (ho j)
  have hruns : ∀ j, ∃ l, miftLoop (segmentLengths bs ns rs) (op j).flow time (responses K bs ns rs time) time.length = some l ∧ ∀ t ∈ timeLong time thr, (detailed (K t) bs ns rs).isSome := by
    intro j
    obtain ⟨f, hf, hflow, hpj, -⟩ := ho j
    obtain ⟨out, hout⟩ := tube_network_returns hal hK hU h hsp hpos hs hthr ht hks hcp hf hflow fun i => (hpj i).imp_left TubeIn.tube
    unfold mixedNetwork mixedDetailed at hout
    rw [ht] at hout
    dsimp only at hout
    rw [hfl j] at hout
    dsimp only at hout
    split_ifs at hout with hd
    obtain ⟨l, hl⟩ := run_mift hp hout
    exact ⟨l, hl, hd⟩
  choose l hl using hruns
  refine ⟨(crossValues (segmentLengths bs ns rs) op l, fun j b => (l j).map fun x => x.T b), ?_⟩
  unfold mixedMany
  rw [ht]
  dsimp only
  rw [allSome_iff.mpr hop]
  dsimp only
  rw [if_pos (hl ⟨0, hk⟩).2]
  exact (miftMany_runs hp).mpr ⟨l, fun j => (hl j).1, rfl, rfl⟩

/-- **C139** fails under the threshold: with two or more flow rates and another number of times under the threshold, the evaluation raises. -/
theorem many_raises (hk : 2 ≤ k) (h0 : 0 < pLong time thr) (hne : k ≠ pLong time thr) : mixedMany K bs ns rs conn pipe ks ms cp time thr = none := by
  unfold mixedMany
  split
  · rfl
  · split
    · rfl
    · split_ifs
      · unfold miftMany
        split
        · rfl
        · rw [if_pos h0, linearizeMany_raises hk hne]
      · rfl

end many

/-- Four boreholes in two circuits, at two flow rates of opposite directions of which one is given twice. -/
example : ∃ g Ts, mixedMany lineKernel fieldRow [1, 1, 1, 1] [[1], [1], [1], [1]] (some [-1, -1, 1, 0]) rowPipe 2 ![[2, 2], [-1, -3], [2, 2]] 4 [10 ^ 6, 10 ^ 9] (10 ^ 4) = some (g, Ts) ∧
    g 0 1 = g 2 1 ∧ g 0 0 = g 0 2 ∧ ∃ v, (g 0 1)[1]? = some v := by
  obtain ⟨t, htd⟩ : ∃ t : Topology, t = ⟨4, [-1, -1, 1, 0], 2, 2, [0, 1], [2, 3], [0, 1, 1, 0]⟩ := ⟨_, rfl⟩
  have ht : construct fieldRow.length (some [-1, -1, 1, 0]) = .ok t := by rw [htd]; rfl
  have h2 : Operates fieldRow t rowPipe 4 [2, 2] := by
    have hf : format t [2, 2] [4] = .ok ⟨[2, 2], false, 4⟩ := by rw [htd]; norm_num [Net.format, formatFlow, formatCp]
    refine ⟨_, hf, fun i => ?_, fun i => Or.inl (rowPipe_tube i), aligned_uniform ht _ (format_ok hf).1 2 (by simp)⟩
    rw [htd]
    have : (i : ℕ) < 4 := i.isLt
    interval_cases h : (i : ℕ) <;> norm_num [mBore]
  have h3 : Operates fieldRow t rowPipe 4 [-1, -3] := by
    have hf : format t [-1, -3] [4] = .ok ⟨[-1, -3], true, 4⟩ := by rw [htd]; norm_num [Net.format, formatFlow, formatCp]
    refine ⟨_, hf, fun i => ?_, fun i => Or.inl (rowPipe_tube i), aligned_rev ht _ rfl⟩
    rw [htd]
    have : (i : ℕ) < 4 := i.isLt
    interval_cases h : (i : ℕ) <;> norm_num [mBore]
  have ho : ∀ j, Operates fieldRow t rowPipe 4 ((![[2, 2], [-1, -3], [2, 2]] : Fin 3 → List ℝ) j) := by
    intro j
    fin_cases j
    exacts [h2, h3, h2]
  have hp : pLong [10 ^ 6, 10 ^ 9] (10 ^ 4) = 0 := by norm_num [pLong]
  obtain ⟨⟨g, Ts⟩, hr⟩ := many_returns (K := lineKernel) (alpha := 1 / 10 ^ 6) (ks := 2) fieldRow_upright fieldRow_splits ht (by norm_num) (by norm_num) (by norm_num) (fun _ _ _ => rfl)
    fieldRow_spaced (by simp) (by norm_num) (by norm_num) ho hp (by norm_num)
  refine ⟨g, Ts, hr, (many_same_partial fieldRow_upright fieldRow_splits ht (by norm_num) (by norm_num) ho hp hr (i := 0) (i' := 2) (j := 1) (j' := 1) rfl rfl).1,
    (many_same_partial fieldRow_upright fieldRow_splits ht (by norm_num) (by norm_num) ho hp hr (i := 0) (i' := 0) (j := 0) (j' := 2) rfl rfl).1, ?_⟩
  obtain ⟨W, -, hg⟩ := many_average_partial fieldRow_upright fieldRow_splits ht (by norm_num) (by norm_num) ho hp hr
  obtain ⟨v, T, hv, -⟩ := (hg 0 1).2 1 (by simp)
  exact ⟨v, hv⟩

end Verif.Gf
