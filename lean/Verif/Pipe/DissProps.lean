import Verif.Pipe.UTubeHeatProps
import Verif.Pipe.MultiOneProps
import Verif.Net.ThermalProps
import Mathlib.Algebra.Order.Chebyshev

/-!
# Property C106 (boreholes): a borehole never moves heat from cold to hot
-/

noncomputable section

namespace Verif.Pipe

open Real Set

/-- A continuous function with a non-negative derivative inside an interval does not decrease over it. -/
theorem le_of_deriv_nonneg {f f' : ℝ → ℝ} {a b : ℝ} (hab : a ≤ b) (hc : ContinuousOn f (Icc a b)) (hd : ∀ z ∈ Ioo a b, HasDerivAt f (f' z) z)
    (h0 : ∀ z ∈ Ioo a b, 0 ≤ f' z) : f a ≤ f b := by
  rcases hab.lt_or_eq with h | h
  · obtain ⟨c, hc1, hc2⟩ := exists_hasDerivAt_eq_slope f f' h hc hd
    have := h0 c hc1
    rw [hc2] at this
    have hba : 0 < b - a := by linarith
    by_contra hlt
    have := div_neg_of_neg_of_pos (show f b - f a < 0 by linarith) hba
    linarith
  · rw [h]

/-- The edges of the segments lie on the borehole. -/
theorem Edges.sub {zu : ℕ → ℝ} {n : ℕ} {H : ℝ} (hz : Edges zu n H) {k : ℕ} (hk : k < n) : Icc (zu k) (zu (k + 1)) ⊆ Icc 0 H := by
  apply Icc_subset_Icc
  · rw [← hz.zero]; exact hz.mono 0 k (Nat.zero_le _) hk.le
  · rw [← hz.last]; exact hz.mono (k + 1) n (by omega) le_rfl

namespace UPar

/-- The delta circuit with non-negative heat exchange dissipates. -/
theorem circuit_nonneg {p : UPar} (hp : p.Passive) (x y : ℝ) : 0 ≤ p.b1 * x ^ 2 + p.b2 * y ^ 2 + p.b12 * (x - y) ^ 2 := by
  have h1 := hp.sum
  have h2 := hp.det
  have e : (p.b1 + p.b2) * (p.b1 * x ^ 2 + p.b2 * y ^ 2 + p.b12 * (x - y) ^ 2)
      = (p.b1 * x + p.b2 * y) ^ 2 + (p.b1 * p.b2 + p.b12 * (p.b1 + p.b2)) * (x - y) ^ 2 := by ring
  have h3 : 0 ≤ (p.b1 + p.b2) * (p.b1 * x ^ 2 + p.b2 * y ^ 2 + p.b12 * (x - y) ^ 2) := by rw [e]; positivity
  exact nonneg_of_mul_nonneg_right h3 h1

/-- The heat gained on the segments, weighted by the temperatures of the walls, is at least the gain of the squared temperature of the fluid. -/
theorem dissipation {p : UPar} (hp : p.Passive) {zu : ℕ → ℝ} {n : ℕ} (hz : Edges zu n p.H) {Tin : ℝ} {Tb : ℕ → ℝ} {d u : ℝ → ℝ} (h : Solution p zu n Tin Tb d u) :
    (u 0 ^ 2 - Tin ^ 2) / 2 ≤ ∑ v ∈ Finset.range n, Tb v * ((d (zu (v + 1)) - d (zu v)) - (u (zu (v + 1)) - u (zu v))) := by
  have seg : ∀ v < n, (d (zu (v + 1)) ^ 2 - u (zu (v + 1)) ^ 2) / 2 - (d (zu v) ^ 2 - u (zu v) ^ 2) / 2
      ≤ Tb v * ((d (zu (v + 1)) - d (zu v)) - (u (zu (v + 1)) - u (zu v))) := fun v hv => by
    have hle : zu v ≤ zu (v + 1) := hz.mono v (v + 1) (by omega) (by omega)
    have c1 := h.contDown.mono (hz.sub hv)
    have c2 := h.contUp.mono (hz.sub hv)
    have := le_of_deriv_nonneg (f := fun z => Tb v * (d z - u z) - (d z ^ 2 - u z ^ 2) / 2)
      (f' := fun z => p.b1 * (Tb v - d z) ^ 2 + p.b2 * (Tb v - u z) ^ 2 + p.b12 * ((Tb v - d z) - (Tb v - u z)) ^ 2) hle (by fun_prop)
      (fun z hzv => by
        have e1 := h.down v hv z hzv
        have e2 := h.up v hv z hzv
        refine ((((e1.sub e2).const_mul (Tb v)).sub (((e1.pow 2).sub (e2.pow 2)).div_const 2))).congr_deriv ?_
        ring) (fun z _ => circuit_nonneg hp _ _)
    linarith
  have hsum := Finset.sum_le_sum fun v hv => seg v (Finset.mem_range.mp hv)
  rw [Finset.sum_range_sub (fun v => (d (zu v) ^ 2 - u (zu v) ^ 2) / 2), hz.zero, hz.last, h.bottom, h.inlet] at hsum
  linarith

end UPar

namespace UTube

variable {t : UTube} (hv : t.Valid) {m cp : ℝ} (hm : m ≠ 0) (hc : 0 < cp) {zu : ℕ → ℝ} {n : ℕ} (hz : Edges zu n t.H)

/-- Wall temperatures beyond the last segment do not matter. -/
def pad (n : ℕ) (Tb : Fin n → ℝ) (u : ℕ) : ℝ := if h : u < n then Tb ⟨u, h⟩ else 0

theorem pad_val (n : ℕ) (Tb : Fin n → ℝ) (s : Fin n) : pad n Tb s = Tb s := by simp [pad]

theorem netPipe_out (m cp : ℝ) (Tin : ℝ) (Tb : Fin n → ℝ) :
    (t.netPipe zu n).outA m cp * Tin + ∑ s, (t.netPipe zu n).outB m cp s * Tb s = t.outletT zu n m cp Tin (pad n Tb) := by
  unfold netPipe outletT UPar.outletT
  dsimp only
  rw [← Fin.sum_univ_eq_sum_range (fun u => (t.par m cp).outB zu u * pad n Tb u)]
  simp only [pad_val]

theorem netPipe_heat (m cp : ℝ) (Tin : ℝ) (Tb : Fin n → ℝ) (s : Fin n) :
    (t.netPipe zu n).heatA m cp s * Tin + ∑ s', (t.netPipe zu n).heatB m cp s s' * Tb s' = t.segmentHeat zu n m cp Tin (pad n Tb) s := by
  unfold netPipe segmentHeat
  dsimp only
  rw [← Fin.sum_univ_eq_sum_range (fun u => t.heatB zu m cp s u * pad n Tb u)]
  simp only [pad_val]

include hv hm hc hz in
/-- **C106** (single U-tube and coaxial boreholes).  The heat extracted from the walls, weighted by their temperatures, is at least the gain of `m cp T² / 2` by the fluid: heat
is not moved from cold to hot. -/
theorem downhill (h : 0 < m ∨ t.reversible = true) (Tin : ℝ) (Tb : ℕ → ℝ) :
    |m| * cp / 2 * (t.outletT zu n m cp Tin Tb ^ 2 - Tin ^ 2) ≤ ∑ v ∈ Finset.range n, Tb v * t.segmentHeat zu n m cp Tin Tb v := by
  have hz' : Edges zu n (t.par m cp).H := hz
  have hp := par_passive hv hm hc
  obtain ⟨sol, hout⟩ := UPar.profile_solves hp hz' Tin Tb
  have key := UPar.dissipation hp hz' sol
  rw [hout] at key
  have e : ∑ v ∈ Finset.range n, Tb v * t.segmentHeat zu n m cp Tin Tb v = |m| * cp * ∑ v ∈ Finset.range n, Tb v *
      (((t.par m cp).downT zu n Tin Tb (zu (v + 1)) - (t.par m cp).downT zu n Tin Tb (zu v)) - ((t.par m cp).upT zu n Tin Tb (zu (v + 1)) - (t.par m cp).upT zu n Tin Tb (zu v))) := by
    rw [Finset.mul_sum]
    refine Finset.sum_congr rfl fun v _ => ?_
    rw [segmentHeat_profiles, sgn_eq_abs (h.imp_left le_of_lt)]
    ring
  rw [e]
  have hM : 0 ≤ |m| * cp := by positivity
  have := mul_le_mul_of_nonneg_left key hM
  unfold outletT
  linarith

include hv hm hc hz in
/-- **C106** (as part of a network). -/
theorem netPipe_thermal (h : 0 < m ∨ t.reversible = true) : (t.netPipe zu n).Thermal m cp := by
  obtain ⟨e1, e2⟩ := netPipe_equilibrium hv hm hc hz
  refine ⟨e1, e2, fun Tin Tb => ?_, fun Tin Tb => ?_, outA_lt hv hm hc⟩
  · simp only [netPipe_heat]
    rw [netPipe_out, Fin.sum_univ_eq_sum_range (fun v => t.segmentHeat zu n m cp Tin (pad n Tb) v)]
    obtain ⟨b1, b2⟩ := energy_balance hv hm hc hz h Tin (pad n Tb)
    rw [b1, b2]
  · simp only [netPipe_heat]
    rw [netPipe_out]
    have := downhill hv hm hc hz h Tin (pad n Tb)
    rw [← Fin.sum_univ_eq_sum_range (fun v => pad n Tb v * t.segmentHeat zu n m cp Tin (pad n Tb) v)] at this
    simpa only [pad_val] using this

/-- Non-vacuity: backward flow through a borehole of two segments. -/
example : ((sample true).netPipe (fun k => 50 * (k : ℝ)) 2).Thermal (-1) 4 :=
  netPipe_thermal (sample_valid true) (by norm_num) (by norm_num)
    ⟨by norm_num, by norm_num, by norm_num [sample, singleUTube], fun i j hij _ => by
      have : (i : ℝ) ≤ j := by exact_mod_cast hij
      linarith⟩ (Or.inr rfl)

end UTube

/-! ### Several U-tubes -/

/-- When it does not increase either, the derivative vanishes. -/
theorem deriv_zero_of_eq {f f' : ℝ → ℝ} {a b : ℝ} (hc : ContinuousOn f (Icc a b)) (hd : ∀ z ∈ Ioo a b, HasDerivAt f (f' z) z)
    (h0 : ∀ z ∈ Ioo a b, 0 ≤ f' z) (he : f b ≤ f a) : ∀ z ∈ Ioo a b, f' z = 0 := by
  have hconst : ∀ z ∈ Ioo a b, f z = f a := fun z hz => by
    have h1 := le_of_deriv_nonneg hz.1.le (hc.mono (Icc_subset_Icc le_rfl hz.2.le)) (fun w hw => hd w ⟨hw.1, hw.2.trans hz.2⟩) fun w hw => h0 w ⟨hw.1, hw.2.trans hz.2⟩
    have h2 := le_of_deriv_nonneg hz.2.le (hc.mono (Icc_subset_Icc hz.1.le le_rfl)) (fun w hw => hd w ⟨hz.1.trans hw.1, hw.2⟩) fun w hw => h0 w ⟨hz.1.trans hw.1, hw.2⟩
    linarith
  intro z hz
  have h1 : HasDerivAt f 0 z := (hasDerivAt_const z (f a)).congr_of_eventuallyEq (Filter.eventually_of_mem (Ioo_mem_nhds hz.1 hz.2) hconst)
  exact (hd z hz).unique h1

namespace Multi

open Matrix

variable {n k : ℕ}

/-- The flows of the circuit, weighted by the deviations from the wall, dissipate. -/
theorem flux_downhill (Rd : Matrix (P n) (P n) ℝ) (hR : Circuit Rd) (T : P n → ℝ) (Tw : ℝ) :
    ∑ i, (T i - Tw) ^ 2 / Rd i i ≤ ∑ i, (Tw - T i) * pipeFlux Rd T Tw i := by
  have h1 := flux_dissipation Rd hR.symm fun i => T i - Tw
  have h2 := (dissipation_nonneg Rd hR.pos fun i => T i - Tw).2
  have e : ∀ i, pipeFlux Rd (fun i => T i - Tw) 0 i = pipeFlux Rd T Tw i := fun i => by
    unfold pipeFlux
    congr 1
    · ring
    · exact Finset.sum_congr rfl fun j _ => by ring
  simp only [e] at h1
  have e2 : ∑ i, (Tw - T i) * pipeFlux Rd T Tw i = -∑ i, (T i - Tw) * pipeFlux Rd T Tw i := by
    rw [← Finset.sum_neg_distrib]
    exact Finset.sum_congr rfl fun i _ => by ring
  rw [e2, h1]
  linarith

variable {ni no : ℕ} {c : Conn n ni no} {Rd : Matrix (P n) (P n) ℝ} {zu : ℕ → ℝ} {H : ℝ} {Tin : Fin ni → ℝ} {Tb : Fin k → ℝ} {T : ℝ → P n → ℝ} {Tout : Fin no → ℝ}

/-- Over one segment. -/
theorem segment_downhill (hR : Circuit Rd) (hm : ∀ i, c.mcp i ≠ 0) (hz : Edges zu k H) (h : Sol c Rd zu H Tin Tb T Tout) (v : Fin k) :
    (∑ i, c.mcp i * T (zu (v + 1)) i ^ 2) / 2 - (∑ i, c.mcp i * T (zu v) i ^ 2) / 2 ≤ Tb v * ∑ i, c.mcp i * (T (zu (v + 1)) i - T (zu v) i) ∧
    (Tb v * ∑ i, c.mcp i * (T (zu (v + 1)) i - T (zu v) i) ≤ (∑ i, c.mcp i * T (zu (v + 1)) i ^ 2) / 2 - (∑ i, c.mcp i * T (zu v) i ^ 2) / 2 →
      ∀ z ∈ Ioo (zu v) (zu (v + 1)), ∀ i, T z i = Tb v) := by
  have hle : zu v ≤ zu (v + 1) := hz.mono v (v + 1) (by omega) v.2
  have hcont : ∀ i, ContinuousOn (fun z => T z i) (Icc (zu v) (zu (v + 1))) := fun i => (h.cont i).mono (hz.sub v.2)
  obtain ⟨F, hF⟩ : ∃ F : ℝ → ℝ, F = fun z => Tb v * (∑ i, c.mcp i * T z i) - (∑ i, c.mcp i * T z i ^ 2) / 2 := ⟨_, rfl⟩
  have hFc : ContinuousOn F (Icc (zu v) (zu (v + 1))) := by
    rw [hF]
    exact (continuousOn_const.mul (continuousOn_finsetSum _ fun i _ => continuousOn_const.mul (hcont i))).sub
      ((continuousOn_finsetSum _ fun i _ => continuousOn_const.mul ((hcont i).pow 2)).div_const 2)
  have hFd : ∀ z ∈ Ioo (zu v) (zu (v + 1)), HasDerivAt F (∑ i, (Tb v - T z i) * pipeFlux Rd (T z) (Tb v) i) z := fun z hzv => by
    have d1 : HasDerivAt (fun z => ∑ i, c.mcp i * T z i) (∑ i, c.mcp i * (pipeFlux Rd (T z) (Tb v) i / c.mcp i)) z :=
      HasDerivAt.fun_sum fun i _ => (h.ode v z hzv i).const_mul _
    have d2 : HasDerivAt (fun z => ∑ i, c.mcp i * T z i ^ 2) (∑ i, c.mcp i * (2 * T z i * (pipeFlux Rd (T z) (Tb v) i / c.mcp i))) z :=
      HasDerivAt.fun_sum fun i _ => by
        refine (((h.ode v z hzv i).pow 2).const_mul (c.mcp i)).congr_deriv ?_
        ring
    rw [hF]
    refine ((d1.const_mul (Tb v)).sub (d2.div_const 2)).congr_deriv ?_
    rw [Finset.mul_sum, Finset.sum_div, ← Finset.sum_sub_distrib]
    refine Finset.sum_congr rfl fun i _ => ?_
    have := hm i
    field_simp
  have hlow : ∀ z, 0 ≤ ∑ i, (T z i - Tb v) ^ 2 / Rd i i := fun z => Finset.sum_nonneg fun i _ => div_nonneg (sq_nonneg _) (hR.pos i i).le
  have hF0 : ∀ z ∈ Ioo (zu v) (zu (v + 1)), 0 ≤ ∑ i, (Tb v - T z i) * pipeFlux Rd (T z) (Tb v) i := fun z _ => (hlow z).trans (flux_downhill Rd hR (T z) (Tb v))
  have e : F (zu (v + 1)) - F (zu v) = Tb v * ∑ i, c.mcp i * (T (zu (v + 1)) i - T (zu v) i)
      - ((∑ i, c.mcp i * T (zu (v + 1)) i ^ 2) / 2 - (∑ i, c.mcp i * T (zu v) i ^ 2) / 2) := by
    rw [hF]
    simp only [mul_sub, Finset.sum_sub_distrib]
    ring
  refine ⟨by linarith [le_of_deriv_nonneg hle hFc hFd hF0], fun heq z hzv i => ?_⟩
  have h1 := deriv_zero_of_eq hFc hFd hF0 (by linarith) z hzv
  have h2 := flux_downhill Rd hR (T z) (Tb v)
  have h3 := (Finset.sum_eq_zero_iff_of_nonneg fun i _ => div_nonneg (sq_nonneg (T z i - Tb v)) (hR.pos i i).le).mp (le_antisymm (h2.trans h1.le) (hlow z)) i (Finset.mem_univ i)
  have h4 := (div_eq_zero_iff.mp h3).resolve_right (hR.pos i i).ne'
  have h5 := pow_eq_zero_iff (two_ne_zero) |>.mp h4
  linarith

/-- Over the whole borehole; with equality the fluid enters at the temperature of the wall. -/
theorem bore_downhill (hR : Circuit Rd) (hm : ∀ i, c.mcp i ≠ 0) (hH : 0 < H) (hz : Edges zu k H) (h : Sol c Rd zu H Tin Tb T Tout) {rev : Fin n → Bool} {w : Fin n → ℝ}
    (ha : Aligned c rev w) :
    (∑ i, w i * (T 0 (upPipe rev i) ^ 2 - T 0 (downPipe rev i) ^ 2)) / 2 ≤ ∑ v : Fin k, Tb v * ∑ i, c.mcp i * (T (zu (v + 1)) i - T (zu v) i) ∧
    (∑ v : Fin k, Tb v * ∑ i, c.mcp i * (T (zu (v + 1)) i - T (zu v) i) ≤ (∑ i, w i * (T 0 (upPipe rev i) ^ 2 - T 0 (downPipe rev i) ^ 2)) / 2 →
      ∃ v : Fin k, ∀ i, T 0 i = Tb v) := by
  have htel : ∑ v : Fin k, ((∑ i, c.mcp i * T (zu (v + 1)) i ^ 2) / 2 - (∑ i, c.mcp i * T (zu v) i ^ 2) / 2) = (∑ i, w i * (T 0 (upPipe rev i) ^ 2 - T 0 (downPipe rev i) ^ 2)) / 2 := by
    rw [Fin.sum_univ_eq_sum_range (fun v => (∑ i, c.mcp i * T (zu (v + 1)) i ^ 2) / 2 - (∑ i, c.mcp i * T (zu v) i ^ 2) / 2) k,
      Finset.sum_range_sub (fun v => (∑ i, c.mcp i * T (zu v) i ^ 2) / 2), hz.zero, hz.last, sum_pipes rev, sum_pipes rev, ← sub_div, ← Finset.sum_sub_distrib]
    congr 1
    refine Finset.sum_congr rfl fun i _ => ?_
    rw [ha.down, ha.up, bottom_pipes rev (T H) h.bottom i]
    ring
  have hle := Finset.sum_le_sum fun v (_ : v ∈ Finset.univ) => (segment_downhill hR hm hz h v).1
  rw [htel] at hle
  refine ⟨hle, fun heq => ?_⟩
  -- every segment has equality
  have hall : ∀ v, Tb v * ∑ i, c.mcp i * (T (zu (v + 1)) i - T (zu v) i) ≤ (∑ i, c.mcp i * T (zu (v + 1)) i ^ 2) / 2 - (∑ i, c.mcp i * T (zu v) i ^ 2) / 2 := by
    by_contra hno
    push Not at hno
    obtain ⟨v, hv⟩ := hno
    have := Finset.sum_lt_sum (fun v (_ : v ∈ Finset.univ) => (segment_downhill hR hm hz h v).1) ⟨v, Finset.mem_univ v, hv⟩
    rw [htel] at this
    linarith
  -- the first segment of positive length
  have hex : ∃ j, 0 < zu j := ⟨k, by rw [hz.last]; exact hH⟩
  classical
  obtain ⟨j, hj, hmin⟩ : ∃ j, 0 < zu j ∧ ∀ i < j, ¬ 0 < zu i := ⟨Nat.find hex, Nat.find_spec hex, fun i hi => Nat.find_min hex hi⟩
  have hj0 : j ≠ 0 := by rintro rfl; rw [hz.zero] at hj; exact lt_irrefl _ hj
  obtain ⟨v, rfl⟩ := Nat.exists_eq_succ_of_ne_zero hj0
  have hvk : v < k := by
    by_contra hge
    exact hmin k (by omega) (by rw [hz.last]; exact hH)
  have hzv : zu v = 0 := le_antisymm (not_lt.mp (hmin v (by omega))) (by rw [← hz.zero]; exact hz.mono 0 v (Nat.zero_le _) hvk.le)
  refine ⟨⟨v, hvk⟩, fun i => ?_⟩
  have hT := (segment_downhill hR hm hz h ⟨v, hvk⟩).2 (hall ⟨v, hvk⟩)
  simp only [hzv] at hT
  have hc : ContinuousOn (fun z => T z i) (Icc 0 (zu (v + 1))) := by
    have := (h.cont i).mono (hz.sub hvk)
    rwa [hzv] at this
  have hcl : closure (Ioo 0 (zu (v + 1))) = Icc 0 (zu (v + 1)) := closure_Ioo hj.ne
  have := (hc 0 ⟨le_rfl, hj.le⟩).mono Ioo_subset_Icc_self
  have hne : (nhdsWithin 0 (Ioo 0 (zu (v + 1)))).NeBot := by
    rw [← mem_closure_iff_nhdsWithin_neBot, hcl]; exact ⟨le_rfl, hj.le⟩
  have hlim : Filter.Tendsto (fun z => T z i) (nhdsWithin 0 (Ioo 0 (zu (v + 1)))) (nhds (Tb ⟨v, hvk⟩)) := by
    refine tendsto_const_nhds.congr' ?_
    filter_upwards [self_mem_nhdsWithin] with z hz'
    exact (hT z hz' i).symm
  exact tendsto_nhds_unique this hlim

/-- The head of the borehole does not increase the squared temperature. -/
theorem head_downhill (c : Config) (hn : 0 < n) (rev : Bool) (Tin Tout q : ℝ) (d u : Fin n → ℝ) (h : HeadSpec c n rev Tin Tout d u) :
    |q| * (Tout ^ 2 - Tin ^ 2) ≤ ∑ i, pipeFlow c n q * (u i ^ 2 - d i ^ 2) := by
  cases c with
  | parallel =>
    obtain ⟨h1, h2⟩ : (∀ i, d i = Tin) ∧ n * Tout = ∑ i, u i := by cases rev <;> exact h
    have hn' : (0 : ℝ) < n := by exact_mod_cast hn
    have h3 : (∑ i, u i) ^ 2 ≤ n * ∑ i, u i ^ 2 := by
      have := sq_sum_le_card_mul_sum_sq (s := (Finset.univ : Finset (Fin n))) (f := u)
      simpa using this
    simp only [pipeFlow, h1]
    rw [← Finset.mul_sum, Finset.sum_sub_distrib]
    simp only [Finset.sum_const, Finset.card_univ, Fintype.card_fin, nsmul_eq_mul]
    rw [← h2] at h3
    have h4 : n * Tout ^ 2 ≤ ∑ i, u i ^ 2 := by
      have : n * (n * Tout ^ 2) ≤ n * ∑ i, u i ^ 2 := by nlinarith
      exact le_of_mul_le_mul_left this hn'
    have h5 : |q| * (Tout ^ 2 - Tin ^ 2) = |q| / n * (n * Tout ^ 2 - n * Tin ^ 2) := by field_simp
    rw [h5]
    exact mul_le_mul_of_nonneg_left (by linarith) (by positivity)
  | series =>
    have hsq : HeadSpec .series n rev (Tin ^ 2) (Tout ^ 2) (fun i => d i ^ 2) fun i => u i ^ 2 := by
      cases rev
      · obtain ⟨h1, h2, h3⟩ := h
        exact ⟨fun i hi => by dsimp only; rw [h1 i hi], fun i j hij => by dsimp only; rw [h2 i j hij], fun i hi => by rw [h3 i hi]⟩
      · obtain ⟨h1, h2, h3⟩ := h
        exact ⟨fun i hi => by dsimp only; rw [h1 i hi], fun i j hij => by dsimp only; rw [h2 i j hij], fun i hi => by rw [h3 i hi]⟩
    exact (head_heat .series hn rev _ _ q _ _ hsq).ge

/-- Some U-tube receives the inlet temperature. -/
theorem head_inlet (c : Config) (hn : 0 < n) (rev : Bool) (Tin Tout : ℝ) (d u : Fin n → ℝ) (h : HeadSpec c n rev Tin Tout d u) : ∃ i, d i = Tin := by
  cases c with
  | parallel =>
    obtain ⟨h1, -⟩ : (∀ i, d i = Tin) ∧ n * Tout = ∑ i, u i := by cases rev <;> exact h
    exact ⟨⟨0, hn⟩, h1 _⟩
  | series =>
    cases rev
    · exact ⟨⟨0, hn⟩, h.1 _ rfl⟩
    · exact ⟨⟨n - 1, by omega⟩, h.1 _ (by simp; omega)⟩

end Multi

namespace Multi

open Matrix

variable {n k : ℕ} {Rd : Matrix (P n) (P n) ℝ} (hR : Circuit Rd) {c : Config} {reversible : Bool} {m cp : ℝ}
  (hf : Flowing n reversible m cp) {e : Eig n} (he : e.Of (odeA Rd (multiple c n reversible m cp).mcp))
  {zu : ℕ → ℝ} {H : ℝ} (hH : 0 < H) (hz : Edges zu k H)

include hR hf he hH hz in
/-- **C106** (several U-tubes).  The same for boreholes with any number of U-tubes in parallel or in series. -/
theorem multiple_downhill {p : Net.Pipe k} (hp : Represents (mkBore k (multiple c n reversible m cp) Rd e zu H) zu p m cp) (Tin : ℝ) (Tb : Fin k → ℝ) :
    |m| * cp / 2 * ((p.outA m cp * Tin + ∑ s, p.outB m cp s * Tb s) ^ 2 - Tin ^ 2) ≤ ∑ s, Tb s * (p.heatA m cp s * Tin + ∑ s', p.heatB m cp s s' * Tb s') ∧
    (∑ s, Tb s * (p.heatA m cp s * Tin + ∑ s', p.heatB m cp s s' * Tb s') ≤ |m| * cp / 2 * ((p.outA m cp * Tin + ∑ s, p.outB m cp s * Tb s) ^ 2 - Tin ^ 2) → ∃ v, Tin = Tb v) := by
  obtain ⟨S, hS⟩ := multiple_regular (k := k) (zu := zu) hR hf he hH
  have ha := multiple_aligned (n := n) c hf.hm hf.dir cp
  have hw : 0 < pipeFlow c n m * cp := mul_pos (pipeFlow_pos c hf.hn hf.hm) hf.hcp
  have hmne := aligned_mcp_ne ha fun _ => hw.ne'
  have hL := multiple_eig_ne hR hf he
  have hsol := mk_solves he hL hz hS (fun _ => Tin) Tb
  obtain ⟨T, hT⟩ : ∃ T : ℝ → P n → ℝ, T = fun z => (mkBore k (multiple c n reversible m cp) Rd e zu H).f0 z *ᵥ (mkBore k (multiple c n reversible m cp) Rd e zu H).T0 S (fun _ => Tin) Tb
      + (mkBore k (multiple c n reversible m cp) Rd e zu H).fb z *ᵥ Tb := ⟨_, rfl⟩
  rw [← hT] at hsol
  obtain ⟨Tout, hTo⟩ : ∃ Tout, Tout = p.outA m cp * Tin + ∑ s, p.outB m cp s * Tb s := ⟨_, rfl⟩
  have ho := represents_outlet hp Tin Tb
  rw [Bore.outlet_form _ hS, Option.some.injEq, ← hTo] at ho
  have ho' : (multiple c n reversible m cp).dfu *ᵥ (mkBore k (multiple c n reversible m cp) Rd e zu H).X S (fun _ => Tin) Tb = fun _ => Tout := ho
  rw [ho'] at hsol
  have hq : ∀ v : Fin k, p.heatA m cp v * Tin + ∑ s, p.heatB m cp v s * Tb s = ∑ i, (multiple c n reversible m cp).mcp i * (T (zu (v + 1)) i - T (zu v) i) := fun v => by
    have h1 := represents_segment hp Tin Tb v
    rw [segmentHeat_form _ hS, Option.some.injEq] at h1
    rw [← h1, hT]
    rfl
  have hms := (sol_iff c hf.hn reversible hf.hm hf.hcp hf.dir Rd zu H Tin Tb T Tout).mp hsol
  have hhead := head_downhill c hf.hn _ Tin Tout m _ _ hms.head
  obtain ⟨b1, b2⟩ := bore_downhill hR hmne hH hz hsol ha
  have hsum : ∑ i, pipeFlow c n m * cp * (T 0 (upPipe (fun _ => reversed reversible m) i) ^ 2 - T 0 (downPipe (fun _ => reversed reversible m) i) ^ 2)
      = cp * ∑ i, pipeFlow c n m * (T 0 (upPipe (fun _ => reversed reversible m) i) ^ 2 - T 0 (downPipe (fun _ => reversed reversible m) i) ^ 2) := by
    rw [Finset.mul_sum]
    exact Finset.sum_congr rfl fun i _ => by ring
  have hcp := mul_le_mul_of_nonneg_left hhead hf.hcp.le
  rw [hsum] at b1 b2
  rw [← hTo]
  simp only [hq]
  refine ⟨by linarith, fun hle => ?_⟩
  obtain ⟨v, hv⟩ := b2 (by linarith)
  obtain ⟨i, hi⟩ := head_inlet c hf.hn _ Tin Tout _ _ hms.head
  exact ⟨v, by rw [← hi]; exact hv _⟩

include hR hf he hH hz in
/-- **C106** (as part of a network, several U-tubes). -/
theorem multiple_thermal {p : Net.Pipe k} (hp : Represents (mkBore k (multiple c n reversible m cp) Rd e zu H) zu p m cp) : p.Thermal m cp := by
  obtain ⟨h1, h2, h3, h4⟩ := multiple_network hR hf he hH hz hp
  refine ⟨h3, h4, fun Tin Tb => ?_, fun Tin Tb => (multiple_downhill hR hf he hH hz hp Tin Tb).1, ?_⟩
  · rw [Finset.sum_add_distrib, ← Finset.sum_mul, h1, Finset.sum_comm]
    simp only [← Finset.sum_mul, h2]
    unfold Net.Pipe.fluidA Net.Pipe.fluidB
    rw [mul_sub, mul_add, Finset.mul_sum]
    simp only [mul_assoc]
    ring
  · by_contra hge
    push Not at hge
    obtain ⟨v, hv⟩ := (multiple_downhill hR hf he hH hz hp 1 fun _ => 0).2 (by
      simp only [mul_one, mul_zero, zero_mul, Finset.sum_const_zero, add_zero, one_pow]
      have := hf.hcp
      have h5 : 0 ≤ p.outA m cp ^ 2 - 1 := by nlinarith
      positivity)
    exact one_ne_zero hv

end Multi

end Verif.Pipe
