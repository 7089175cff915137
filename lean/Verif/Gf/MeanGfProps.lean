import Verif.Gf.TubeNetProps
import Verif.Net.MeanProps
import Verif.Sol.AverageProps
import Verif.Pipe.BetweenProps

/-!
# Property C108: the g-function of a network with a mixed inlet temperature is an average of the wall temperatures
-/

noncomputable section

namespace Verif.Gf

open Bore Sol Net FLS

variable {bs : List Borehole} {ns : List ℕ} {rs : List (List ℝ)} {conn : Option (List ℤ)} {t : Topology}

theorem netFlow_heat {n N : ℕ} {cs : Fin n → ℕ} (hlen : ∑ i, cs i = N) (p : (i : Fin n) → Net.Pipe (cs i)) (f : Formatted) (ki : Coef (Fin n) cs) (mcp R ks : ℝ) (Hb : Fin N → ℝ)
    (Tin : ℝ) (T : Fin N → ℝ) :
    ∑ a, ((netFlow hlen (boreHeat t p f ki) mcp R ks Hb).aIn a * Tin + ∑ b, (netFlow hlen (boreHeat t p f ki) mcp R ks Hb).aB a b * T b)
      = totalHeat t p f ki Tin fun s => T (segPlace hlen s) := by
  unfold Net.totalHeat
  rw [← (segPlace hlen).sum_comp]
  refine Finset.sum_congr rfl fun s _ => ?_
  rw [← (segPlace hlen).sum_comp]
  unfold netFlow Coef.eval
  simp only [Equiv.symm_apply_apply, Matrix.mulVec, dotProduct]

theorem format_cp {m : List ℝ} {cp : ℝ} {f : Formatted} (hf : format t m [cp] = .ok f) : f.cp = cp := by
  unfold Net.format at hf
  cases h1 : formatFlow t.nInlets m with
  | error e => rw [h1] at hf; cases hf
  | ok mIn =>
    rw [h1] at hf
    dsimp only [formatCp] at hf
    split_ifs at hf <;> cases hf <;> rfl

/-- The total flow rate of the solver is that of the circuits. -/
theorem format_total {m : List ℝ} {cp : ℝ} {f : Formatted} (hn : 0 < t.nInlets) (hf : format t m [cp] = .ok f) (c : ℝ) :
    (m.map fun a => |a| * c).sum = (f.mIn.map abs).sum * c := by
  obtain ⟨-, -, -, h4, h5⟩ := format_ok hf
  have e : ∀ l : List ℝ, (l.map fun a => |a| * c).sum = (l.map abs).sum * c := fun l => by
    induction l with
    | nil => simp
    | cons a l ih => simp only [List.map_cons, List.sum_cons, ih, add_mul]
  by_cases h1 : m.length = 1
  · obtain ⟨a, rfl⟩ := List.length_eq_one_iff.mp h1
    rw [h4 a rfl]
    have : (t.nInlets : ℝ) ≠ 0 := by exact_mod_cast hn.ne'
    simp only [List.map_cons, List.map_nil, List.sum_cons, List.sum_nil, add_zero, List.map_replicate, List.sum_replicate, nsmul_eq_mul, abs_div, Nat.abs_cast]
    field_simp
  · rw [h5 h1, e]

/-- What a mixed inlet g-function of a network is made of. -/
theorem mixedNetwork_parts {K : ℝ → Bool → Borehole → Borehole → ℝ} (ht : construct bs.length conn = .ok t) (hlen : ∑ i : Fin bs.length, (rs.getD i []).length = (segmentList bs ns rs).length)
    {pipe : Fin bs.length → (r : List ℝ) → Net.Pipe r.length} {ks : ℝ} {m : List ℝ} {cp : ℝ} {f : Formatted} (hf : format t m [cp] = .ok f) {time : List ℝ} {thr : ℝ}
    {out : List ℝ × List (Fin (segmentList bs ns rs).length → ℝ) × (Fin (segmentList bs ns rs).length → List ℝ)}
    (h : mixedNetwork K bs ns rs conn pipe ks m cp time thr = some out) : ∃ ki k1 ko1,
      netInlet t (fun i => pipe i (rs.getD i [])) f = some ki ∧ netInlet t (fun i => pipe i [1]) f = some k1 ∧ netOutlet t (fun i => pipe i [1]) f = some ko1 ∧
      mift (segmentLengths bs ns rs) (netFlow hlen (boreHeat t (fun i => pipe i (rs.getD i [])) f ki) ((m.map fun a => |a| * cp).sum)
        (netResistance (bs.map Borehole.H).sum (netMixed (mixing (flowOutlets t f) f.mIn) ko1) (netHeat (fluidHeat t (fun i => pipe i [1]) f k1))) ks (segmentLengths bs ns rs))
        (responses K bs ns rs) time thr = some out := by
  obtain ⟨ki, ko, hki, -, -⟩ := network_temperatures ht (fun i => pipe i (rs.getD i [])) f
  obtain ⟨k1, ko1, hk1, hko1, -⟩ := network_temperatures ht (fun i => pipe i [1]) f
  refine ⟨ki, k1, ko1, hki, hk1, hko1, ?_⟩
  unfold mixedNetwork networkFlow fieldResistance at h
  rw [ht] at h
  dsimp only at h
  rw [hf] at h
  dsimp only at h
  rw [hki, hk1, hko1] at h
  dsimp only at h
  rw [dif_pos hlen] at h
  dsimp only [mixedDetailed] at h
  split_ifs at h
  exact h

/-- The value of a step is the average temperature of the walls exactly when the response of the mixed outlet is that of the heat balance. -/
theorem effective_average {Htot ks mcp C o Tin avg : ℝ} (hC : C ≠ 0) (hm : mcp ≠ 0) (hH : Htot ≠ 0) (hks : ks ≠ 0) (hheat : C * (avg - Tin) = -(2 * Real.pi * ks * Htot)) :
    0.5 * (Tin + (Tin - 2 * Real.pi * ks * Htot / mcp)) - 2 * Real.pi * ks * (-0.5 * Htot * (1 + o) / -C) = avg ↔ mcp * (1 - o) = C := by
  have hpi := Real.pi_ne_zero
  have h1 : avg = Tin - 2 * Real.pi * ks * Htot / C := by
    field_simp; linarith
  have e : (0.5 * (Tin + (Tin - 2 * Real.pi * ks * Htot / mcp)) - 2 * Real.pi * ks * (-0.5 * Htot * (1 + o) / -C)) - avg = Real.pi * ks * Htot / (C * mcp) * (mcp * (1 - o) - C) := by
    rw [h1]; field_simp; ring
  rw [← sub_eq_zero, e, ← sub_eq_zero (b := C)]
  constructor
  · intro h
    rcases mul_eq_zero.mp h with h | h
    · exact absurd h (by positivity)
    · exact h
  · intro h
    rw [h, mul_zero]

variable {K : ℝ → Bool → Borehole → Borehole → ℝ} {rb : ℝ} (hU : Upright rb bs) (h : Splits bs ns rs) (ht : construct bs.length conn = .ok t)
  {pipe : Fin bs.length → (r : List ℝ) → Net.Pipe r.length} {ks : ℝ} (hks : 0 < ks) {m : List ℝ} {cp : ℝ} (hcp : 0 < cp) {f : Formatted} (hf : format t m [cp] = .ok f)
  (hflow : ∀ i : Fin bs.length, mBore t f i ≠ 0)
  (hp : ∀ i, (pipe i (rs.getD i [])).Thermal (mBore t f i) cp) (hw : ∀ i, (pipe i (rs.getD i [])).Weighted (mBore t f i) cp)
  (hp1 : ∀ i, (pipe i [1]).Thermal (mBore t f i) cp) (hA : ∀ i, (pipe i (rs.getD i [])).outA (mBore t f i) cp = (pipe i [1]).outA (mBore t f i) cp)
include hU h ht hks hcp hf hflow hp hw hp1 hA

theorem step_average {time : List ℝ} {thr : ℝ} {out : List ℝ × List (Fin (segmentList bs ns rs).length → ℝ) × (Fin (segmentList bs ns rs).length → List ℝ)}
    (hr : mixedNetwork K bs ns rs conn pipe ks m cp time thr = some out) : ∃ (w : Fin (segmentList bs ns rs).length → ℝ) (C o : ℝ) (fl : Flow (segmentList bs ns rs).length) (ko : _),
      (∀ i, 0 ≤ w i) ∧ ∑ i, w i = 1 ∧ 0 < C ∧ 0 < (f.mIn.map abs).sum * cp ∧ netOutlet t (fun i => pipe i [1]) f = some ko ∧ o = (netMixed (mixing (flowOutlets t f) f.mIn) ko).aIn () ∧
      (∀ ki, netInlet t (fun i => pipe i (rs.getD i [])) f = some ki → ∀ Tin (T : Fin (segmentList bs ns rs).length → ℝ),
        totalHeat t (fun i => pipe i (rs.getD i [])) f ki Tin (fun s => T (segPlace (segments_total h.consistent) s)) = C * (∑ i, w i * T i - Tin)) ∧
      (∀ ki, netInlet t (fun i => pipe i [1]) f = some ki → C = conductance t (fun i => pipe i [1]) f ki) ∧
      mift (segmentLengths bs ns rs) fl (responses K bs ns rs) time thr = some out ∧
      (∀ past p x, miftStep (segmentLengths bs ns rs) fl (timeLong time thr) (responses K bs ns rs (timeLong time thr)) past p = some x →
        (x.g = ∑ i, w i * x.T i ↔ (f.mIn.map abs).sum * cp * (1 - o) = C)) ∧
      ∃ ki mcp R, netInlet t (fun i => pipe i (rs.getD i [])) f = some ki ∧ fl = netFlow (segments_total h.consistent) (boreHeat t (fun i => pipe i (rs.getD i [])) f ki) mcp R ks (segmentLengths bs ns rs) := by
  have hlen := segments_total h.consistent
  have hfc := format_cp hf
  obtain ⟨-, -, hv, hin, -, hni, -⟩ := construct_ok ht
  have hn0 : 0 < t.nInlets := by
    obtain ⟨-, -, -, -, -, hc, -⟩ := circuits_decompose _ conn t ht
    obtain ⟨k, hk, -⟩ := hc 0 hv.pos
    omega
  obtain ⟨ki, k1, ko1, hki, hk1, hko1, hmift⟩ := mixedNetwork_parts ht hlen hf hr
  have hp' : ∀ i, ((fun i => pipe i (rs.getD i [])) i).Thermal (mBore t f i) f.cp := fun i => by rw [hfc]; exact hp i
  have hw' : ∀ i, ((fun i => pipe i (rs.getD i [])) i).Weighted (mBore t f i) f.cp := fun i => by rw [hfc]; exact hw i
  have hp1' : ∀ i, ((fun i => pipe i [1]) i).Thermal (mBore t f i) f.cp := fun i => by rw [hfc]; exact hp1 i
  have hcp' : 0 < f.cp := by rw [hfc]; exact hcp
  obtain ⟨w, w0, w1, hheat⟩ := network_mean ht _ f hp' hw' (format_ok hf).1 hcp' hflow hki
  have hC := conductance_pos ht _ f hp' hw' hcp' hflow hki
  have hCC := conductance_segments ht _ f hp' _ hp1' (fun i => by rw [hfc]; exact hA i) hki hk1
  -- there is a flow
  have hS : 0 < (f.mIn.map abs).sum := by
    rw [← inlet_total ht f (format_ok hf).1]
    obtain ⟨rank, hrank⟩ := fedBy_rank ht f
    obtain ⟨i, -, hi⟩ := Finset.exists_min_image (Finset.univ : Finset (Fin bs.length)) rank ⟨⟨0, hv.pos⟩, Finset.mem_univ _⟩
    refine Finset.sum_pos' (fun j _ => by split_ifs <;> positivity) ⟨i, Finset.mem_univ i, ?_⟩
    rw [if_pos ((flowInlets_iff ht f i).mpr fun j hj => absurd (hi j (Finset.mem_univ j)) (not_le.mpr (hrank i j hj)))]
    exact abs_pos.mpr (hflow i)
  have htot : ∑ i, segmentLengths bs ns rs i = (bs.map Borehole.H).sum := by
    rw [← segmentList_H h]
    exact Fin.sum_univ_fun_getElem _ Borehole.H
  have hHpos : ∀ i, 0 < segmentLengths bs ns rs i := by
    obtain ⟨bore, hst, -⟩ := segment_data hU h
    exact hst.len
  have havg : ∀ T : Fin (segmentList bs ns rs).length → ℝ, ∑ s, w s * T (segPlace hlen s) = ∑ i, w ((segPlace hlen).symm i) * T i := fun T => by
    rw [← (segPlace hlen).sum_comp]
    exact Finset.sum_congr rfl fun s _ => by rw [Equiv.symm_apply_apply]
  refine ⟨fun i => w ((segPlace hlen).symm i), conductance t _ f ki, _, _, ko1, fun i => w0 _, ?_, hC, mul_pos hS hcp, hko1, rfl, ?_, ?_, hmift, ?_, ki, _, _, hki, rfl⟩
  · rw [← (segPlace hlen).sum_comp]
    simpa only [Equiv.symm_apply_apply] using w1
  · intro ki' hki' Tin T
    rw [hki, Option.some.injEq] at hki'
    subst hki'
    rw [hheat, havg]
  · intro k hk
    rw [hk1, Option.some.injEq] at hk
    subst hk
    exact hCC
  · intro past p x hx
    obtain ⟨-, hbal, -⟩ := mift_balance hx hks.ne' (fun i => (hHpos i).ne') (fun _ => 1) fun i => (one_mul _).symm
    simp only [one_mul] at hbal
    rw [netFlow_heat, hheat, havg, htot] at hbal
    obtain ⟨-, -, -, -, -, -, hg⟩ := miftStep_spec hx
    rw [hg]
    unfold effective netFlow netResistance
    dsimp only
    rw [heat_response _ f hp1', ← hCC, htot, format_total hn0 hf]
    exact effective_average hC.ne' (mul_pos hS hcp).ne' hU.total.ne' hks.ne' hbal

/-- **C108** (the part that holds).  When the outlets carry the flow rates in the order of the circuits, the g-function with a mixed inlet temperature is at every time the same
weighted average of the wall temperatures: the temperature of uniform walls from which the network would extract the same heat.  Missing: outlets in another order with
different flow rates (`mixed_network_mean_fails`). -/
theorem mixed_network_mean_partial (ha : Net.Aligned t f) {time : List ℝ} {thr : ℝ} {g : List ℝ} {Qs : List (Fin (segmentList bs ns rs).length → ℝ)}
    {Ts : Fin (segmentList bs ns rs).length → List ℝ} (hr : mixedNetwork K bs ns rs conn pipe ks m cp time thr = some (g, Qs, Ts)) :
    ∃ w : Fin (segmentList bs ns rs).length → ℝ, (∀ i, 0 ≤ w i) ∧ ∑ i, w i = 1 ∧
      (∀ ki, netInlet t (fun i => pipe i (rs.getD i [])) f = some ki → ∀ Tin (T : Fin (segmentList bs ns rs).length → ℝ),
        totalHeat t (fun i => pipe i (rs.getD i [])) f ki Tin (fun s => T (segPlace (segments_total h.consistent) s))
          = totalHeat t (fun i => pipe i (rs.getD i [])) f ki Tin fun _ => ∑ i, w i * T i) ∧
      ∀ k < time.length, ∃ (v : ℝ) (T : Fin (segmentList bs ns rs).length → ℝ), g[k]? = some v ∧ (∀ i, (Ts i)[k]? = some (T i)) ∧ v = ∑ i, w i * T i := by
  obtain ⟨w, C, o, fl, ko, w0, w1, hC, hm, hko, ho, hheat, hCC, hmift, hstep, -⟩ := step_average hU h ht hks hcp hf hflow hp hw hp1 hA hr
  obtain ⟨k1, ko', hk1, hko', -⟩ := network_temperatures ht (fun i => pipe i [1]) f
  rw [hko, Option.some.injEq] at hko'
  subst hko'
  have hfc := format_cp hf
  have hresp := mixed_response ht (fun i => pipe i [1]) f (fun i => by rw [hfc]; exact hp1 i) (format_ok hf).1 (by rintro h0; rw [h0, zero_mul] at hm; exact hm.false) ha hk1 hko
  rw [← ho, ← hCC k1 hk1, hfc] at hresp
  refine ⟨w, w0, w1, fun ki hki Tin T => ?_, mift_average hmift w fun past p x hx => (hstep past p x hx).mpr hresp⟩
  rw [hheat ki hki]
  have := hheat ki hki Tin fun _ => ∑ i, w i * T i
  rw [this, ← Finset.sum_mul, w1, one_mul]

/-- **C108** (range).  It lies between the smallest and the largest wall temperature. -/
theorem mixed_network_range_partial (ha : Net.Aligned t f) {time : List ℝ} {thr : ℝ} {g : List ℝ} {Qs : List (Fin (segmentList bs ns rs).length → ℝ)}
    {Ts : Fin (segmentList bs ns rs).length → List ℝ} (hr : mixedNetwork K bs ns rs conn pipe ks m cp time thr = some (g, Qs, Ts)) {k : ℕ} (hk : k < time.length) :
    ∃ v i j lo hi, g[k]? = some v ∧ (Ts i)[k]? = some lo ∧ (Ts j)[k]? = some hi ∧ lo ≤ v ∧ v ≤ hi := by
  obtain ⟨w, w0, w1, -, hall⟩ := mixed_network_mean_partial hU h ht hks hcp hf hflow hp hw hp1 hA ha hr
  obtain ⟨v, T, hv, hT, he⟩ := hall k hk
  obtain ⟨i, j, hi, hj⟩ := average_between w T w0 w1
  exact ⟨v, i, j, T i, T j, hv, hT i, hT j, by rw [he]; exact hi, by rw [he]; exact hj⟩

end Verif.Gf

/-! ### The response of a borehole to its inlet does not depend on the segments -/

namespace Verif.Pipe.Multi

open Set

variable {n k k' : ℕ} {zu zu' : ℕ → ℝ} {H : ℝ} {Rd : Matrix (P n) (P n) ℝ}

theorem multiple_segments (hR : Circuit Rd) (hH : 0 < H) (hz : Edges zu k H) (hz' : Edges zu' 1 H) {c : Config} {reversible : Bool} {m cp : ℝ} (hf : Flowing n reversible m cp) {e : Eig n}
    (he : e.Of (odeA Rd (multiple c n reversible m cp).mcp)) {p : Net.Pipe k} {p' : Net.Pipe 1} (hp : Represents (mkBore k (multiple c n reversible m cp) Rd e zu H) zu p m cp)
    (hp' : Represents (mkBore 1 (multiple c n reversible m cp) Rd e zu' H) zu' p' m cp) : p.outA m cp = p'.outA m cp := by
  obtain ⟨T, Tout, -, h2, -, huniq⟩ := multiple_profile hR hf he hH hz 1 fun _ => 0
  obtain ⟨T', Tout', -, h2', hs', -⟩ := multiple_profile hR hf he hH hz' 1 fun _ => 0
  have hsub : ∀ v < k, Ioo (zu v) (zu (v + 1)) ⊆ Ioo (zu' (0 : Fin 1)) (zu' ((0 : Fin 1) + 1)) := fun v hv z hzv => by
    have e0 : zu' (0 : Fin 1) = 0 := hz'.zero
    have e1 : zu' ((0 : Fin 1) + 1) = H := hz'.last
    rw [e0, e1]
    have a1 := hz.mono 0 v (Nat.zero_le _) (by omega)
    have a2 := hz.mono (v + 1) k (by omega) le_rfl
    rw [hz.zero] at a1
    rw [hz.last] at a2
    exact ⟨a1.trans_lt hzv.1, hzv.2.trans_le a2⟩
  obtain ⟨-, ho⟩ := huniq T' Tout' ⟨fun v z hzv i => hs'.down 0 z (hsub v v.2 hzv) i, fun v z hzv i => hs'.up 0 z (hsub v v.2 hzv) i, hs'.cont, hs'.bottom, hs'.head⟩
  rw [represents_outlet hp, Option.some.injEq] at h2
  rw [represents_outlet hp', Option.some.injEq] at h2'
  have f1 := congrFun h2 0
  have f2 := congrFun h2' 0
  simp only [mul_one, mul_zero, Finset.sum_const_zero, add_zero] at f1 f2
  rw [f1, f2, ho]

end Verif.Pipe.Multi

namespace Verif.Gf

open Bore Sol Net FLS

/-- Specification: a single U-tube or a coaxial borehole whose pipes do not exchange heat from the colder to the warmer one. -/
def TubeIn (b : Borehole) (p : (r : List ℝ) → Net.Pipe r.length) (m : ℝ) : Prop :=
  ∃ t : Pipe.UTube, t.Valid ∧ 0 ≤ t.G 0 1 ∧ t.H = b.H ∧ (0 < m ∨ t.reversible = true) ∧ ∀ r, p r = t.netPipe (edgesAt b r) r.length

theorem TubeIn.tube {b : Borehole} {p : (r : List ℝ) → Net.Pipe r.length} {m : ℝ} (h : TubeIn b p m) : UTubeIn b p m := by
  obtain ⟨t, h1, -, h3, h4, h5⟩ := h
  exact ⟨t, h1, h3, h4, h5⟩

theorem piped_weighted {b : Borehole} {p : (r : List ℝ) → Net.Pipe r.length} {m cp : ℝ} (hm : m ≠ 0) (hcp : 0 < cp) (hH : 0 < b.H) (h : TubeIn b p m ∨ MultipleIn b p m cp)
    {r : List ℝ} (hpos : ∀ ρ ∈ r, 0 < ρ) (hsum : r.sum = 1) : (p r).Weighted m cp ∧ (p r).outA m cp = (p [1]).outA m cp := by
  have hz := edgesAt_edges hH hpos hsum
  have hz1 := edgesAt_edges (b := b) (r := [1]) hH (by simp) (by simp)
  rcases h with ⟨t, hv, h12, ht, hd, hp⟩ | ⟨k, c, rev, Rd, e, hR, hf, he, hp⟩
  · rw [hp r, hp [1]]
    exact ⟨Pipe.UTube.netPipe_weighted hv hm hcp (by rw [ht]; exact hz) h12, rfl⟩
  · exact ⟨Pipe.Multi.multiple_weighted hR hH hz hf he (hp r), Pipe.Multi.multiple_segments hR hH hz hz1 hf he (hp r) (hp [1])⟩

variable {bs : List Borehole} {ns : List ℕ} {rs : List (List ℝ)} {conn : Option (List ℤ)} {t : Topology}

/-- **C108** (the pipes of the library; the part that holds). -/
theorem tube_network_mean_partial {K : ℝ → Bool → Borehole → Borehole → ℝ} {rb : ℝ} (hU : Upright rb bs) (h : Splits bs ns rs) (ht : construct bs.length conn = .ok t)
    {pipe : Fin bs.length → (r : List ℝ) → Net.Pipe r.length} {ks : ℝ} (hks : 0 < ks) {m : List ℝ} {cp : ℝ} (hcp : 0 < cp) {f : Formatted} (hf : format t m [cp] = .ok f)
    (hflow : ∀ i : Fin bs.length, mBore t f i ≠ 0) (hp : ∀ i : Fin bs.length, TubeIn bs[i] (pipe i) (mBore t f i) ∨ MultipleIn bs[i] (pipe i) (mBore t f i) cp) (ha : Net.Aligned t f)
    {time : List ℝ} {thr : ℝ} {g : List ℝ} {Qs : List (Fin (segmentList bs ns rs).length → ℝ)} {Ts : Fin (segmentList bs ns rs).length → List ℝ}
    (hr : mixedNetwork K bs ns rs conn pipe ks m cp time thr = some (g, Qs, Ts)) :
    ∃ w : Fin (segmentList bs ns rs).length → ℝ, (∀ i, 0 ≤ w i) ∧ ∑ i, w i = 1 ∧
      (∀ ki, netInlet t (fun i => pipe i (rs.getD i [])) f = some ki → ∀ Tin (T : Fin (segmentList bs ns rs).length → ℝ),
        totalHeat t (fun i => pipe i (rs.getD i [])) f ki Tin (fun s => T (segPlace (segments_total h.consistent) s))
          = totalHeat t (fun i => pipe i (rs.getD i [])) f ki Tin fun _ => ∑ i, w i * T i) ∧
      ∀ k < time.length, ∃ (v : ℝ) (T : Fin (segmentList bs ns rs).length → ℝ), g[k]? = some v ∧ (∀ i, (Ts i)[k]? = some (T i)) ∧ v = ∑ i, w i * T i := by
  have hl : rs.length = bs.length := by rw [← h.consistent.segs, ← h.consistent.ratios, List.length_map]
  have hmem : ∀ i : Fin bs.length, rs.getD i [] ∈ rs := fun i => by
    have hi : (i : ℕ) < rs.length := by have := i.isLt; omega
    rw [List.getD_eq_getElem _ _ hi]; exact List.getElem_mem _
  have hH : ∀ i : Fin bs.length, 0 < bs[i].H := fun i => hU.H _ (List.getElem_mem _)
  have hp' : ∀ i : Fin bs.length, UTubeIn bs[i] (pipe i) (mBore t f i) ∨ MultipleIn bs[i] (pipe i) (mBore t f i) cp := fun i => (hp i).imp_left TubeIn.tube
  have hpw := fun i : Fin bs.length => piped_weighted (hflow i) hcp (hH i) (hp i) (h.pos _ (hmem i)) (h.sum _ (hmem i))
  exact mixed_network_mean_partial hU h ht hks hcp hf hflow (fun i => piped_thermal (hflow i) hcp (hH i) (hp' i) (h.pos _ (hmem i)) (h.sum _ (hmem i))) (fun i => (hpw i).1)
    (fun i => piped_thermal (hflow i) hcp (hH i) (hp' i) (by simp) (by simp)) (fun i => (hpw i).2) ha hr

end Verif.Gf
