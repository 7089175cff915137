import Verif.Pipe.GetProps
import Verif.Pipe.MultiProps
import Verif.Pipe.MultiEig

/-!
# C115: the heat extraction rates returned for the segments and in total
-/

noncomputable section

namespace Verif.Pipe.Get

open Matrix

variable {ι : Type} [Fintype ι] {ni : ℕ}

/-- The heat gained by the fluid in the pipes between the edges of the segments is the heat gained between inlets and outlets. -/
def Balanced (P : Tubes ι ni) : Prop :=
  ∀ k zu, Edges zu k P.H → ∀ (x : Fin ni → ℝ) (y : Fin k → ℝ) (T : ℕ → ι → ℝ), (∀ v ≤ k, ∃ c, P.temp k zu (zu v) = some c ∧ T v = c.1 *ᵥ x + c.2 *ᵥ y) →
    ∀ co, P.outlet k zu = some co → ∑ v : Fin k, ∑ i, P.mcp i * (T (v + 1) i - T v i) = ∑ j, P.mcpIn j * ((co.1 *ᵥ x + co.2 *ᵥ y) j - x j)

/-- The ratios are not negative. -/
def Forward (q : Option (List ℝ)) : Prop := ∀ l, q = some l → ∀ r ∈ l, 0 ≤ r

theorem edges_ok {H : ℝ} (hH : 0 ≤ H) {n : ℕ} {q : Option (List ℝ)} (h : Cover n q) (hf : Forward q) : Edges (edges H n q) n H := by
  obtain ⟨h0, h1⟩ := cover_edges (H := H) h
  rw [(cover_check h).2] at h1
  have hl : ∀ r ∈ q.getD (List.replicate n (1 / (n : ℝ))), 0 ≤ r := by
    cases q with
    | none =>
      intro r hr
      rw [(List.mem_replicate.mp hr).2]
      positivity
    | some l => exact hf l rfl
  refine ⟨?_, h0, h1, fun i j hij _ => ?_⟩
  · cases q with
    | none => exact h
    | some l =>
      rcases Nat.eq_zero_or_pos n with rfl | hn
      · have : l = [] := List.length_eq_zero_iff.mp h.1
        have h2 := h.2
        rw [this] at h2
        exact absurd h2 (by norm_num)
      · exact hn
  · unfold edges
    refine mul_le_mul_of_nonneg_right ?_ hH
    obtain ⟨d, rfl⟩ := Nat.exists_eq_add_of_le hij
    rw [List.take_add, List.sum_append]
    have : 0 ≤ ((List.drop i (q.getD (List.replicate n (1 / (n : ℝ))))).take d).sum :=
      List.sum_nonneg fun r hr => hl r (List.mem_of_mem_drop (List.mem_of_mem_take hr))
    linarith

/-- **C115** (energy balance).  The heat extraction rates returned for the segments sum to the total heat extraction rate. -/
theorem get_balance {P : Tubes ι ni} (hP : Balanced P) (hH : 0 ≤ P.H) {Tin Tb r : Py} {q : Option (List ℝ)} (hq : Cover Tb.toList.length q) (hf : Forward q) {t : ℝ}
    (hr : getHeat P Tin Tb q = .ok r) (ht : getTotal P Tin Tb q = .ok t) : r.toList.sum = t := by
  have hE := edges_ok hH hq hf
  obtain ⟨c1, c2⟩ := cover_check hq
  obtain ⟨-, T, hT, rfl⟩ := (getHeat_iff P (by rw [c2]; exact hE.pos)).mp hr
  obtain ⟨x, o, hx, ⟨To, hTo, ho⟩, rfl⟩ := total_heat P ht
  obtain ⟨-, co, x', y, hco, hx', hy, hr', -⟩ := (getOutlet_iff P).mp hTo
  obtain rfl : x = x' := List.ofFn_injective (hx.symm.trans hx')
  obtain rfl : o = co.1 *ᵥ x + co.2 *ᵥ y := List.ofFn_injective (ho.symm.trans hr')
  have key : ∀ n, n = count Tb.toList.length q → Edges (edges P.H Tb.toList.length q) n P.H := by rintro n rfl; rw [c2]; exact hE
  have h := hP _ _ (key _ rfl) x y T (fun v hv => by
    obtain ⟨c, x', y', h1, h2, h3, h4⟩ := hT v hv
    obtain rfl : x = x' := List.ofFn_injective (hx.symm.trans h2)
    obtain rfl : y = y' := List.ofFn_injective (hy.symm.trans h3)
    exact ⟨c, h1, h4⟩) co hco
  rw [← h]
  exact List.sum_ofFn

/-- Single U-tubes and coaxial pipes. -/
theorem uTube_balanced {t : UTube} (hv : t.Valid) {m cp : ℝ} (hm : m ≠ 0) (hc : 0 < cp) (h : 0 < m ∨ t.reversible = true) : Balanced (ofUTube t m cp) := by
  intro k zu hz x y T hT co hco
  cases hco
  obtain ⟨Tb, hTb⟩ : ∃ Tb : ℕ → ℝ, Tb = fun u => if hu : u < k then y ⟨u, hu⟩ else 0 := ⟨_, rfl⟩
  have hy : ∀ u : Fin k, Tb u = y u := fun u => by rw [hTb]; simp
  have hsum : ∀ f : ℕ → ℝ, ∑ u : Fin k, f u * y u = ∑ u ∈ Finset.range k, f u * Tb u := fun f => by
    rw [← Fin.sum_univ_eq_sum_range (fun u => f u * Tb u)]
    exact Finset.sum_congr rfl fun u _ => by rw [hy]
  have hTv : ∀ v ≤ k, T v = t.temperature zu k m cp (x 0) Tb (zu v) := fun v hv' => by
    obtain ⟨c, h1, h2⟩ := hT v hv'
    cases h1
    rw [h2]
    funext i
    unfold UTube.temperature
    rw [← hsum fun u => t.tempB zu m cp (zu v) i u]
    simp [mulVec, dotProduct]
  have e := UTube.energy_balance hv hm hc hz h (x 0) Tb
  have e1 : ∑ v : Fin k, ∑ i, (ofUTube t m cp).mcp i * (T (v + 1) i - T v i) = ∑ v ∈ Finset.range k, t.segmentHeat zu k m cp (x 0) Tb v := by
    rw [← Fin.sum_univ_eq_sum_range (fun v => t.segmentHeat zu k m cp (x 0) Tb v)]
    refine Finset.sum_congr rfl fun v _ => ?_
    rw [UTube.segmentHeat_eq, hTv _ v.2, hTv _ v.2.le]
    rfl
  rw [e1, e.1, e.2]
  unfold UTube.outletT UPar.outletT
  rw [← hsum fun u => (t.par m cp).outB zu u]
  simp [mulVec, dotProduct, ofUTube]

theorem multi_balanced {n : ℕ} {c : Multi.Conn n ni ni} {Rd : Matrix (Multi.P n) (Multi.P n) ℝ} {e : Multi.Eig n} {H : ℝ}
    (h : ∀ k zu, Edges zu k H → ∀ (x : Fin ni → ℝ) (y : Fin k → ℝ), ∃ (q : Fin k → ℝ) (Tout Qf : Fin ni → ℝ), (∀ v : Fin k, (Multi.mkBore k c Rd e zu H).segmentHeat zu x y v = some (q v)) ∧
      (Multi.mkBore k c Rd e zu H).outletT x y = some Tout ∧ (∀ i, Qf i = c.mcpIn i * (Tout i - x i)) ∧ ∑ v, q v = ∑ i, Qf i) : Balanced (ofMulti c Rd e H) := by
  intro k zu hz x y T hT co hco
  obtain ⟨q, Tout, Qf, h1, h2, h3, h4⟩ := h k zu hz x y
  have e1 : Tout = co.1 *ᵥ x + co.2 *ᵥ y := by
    unfold Multi.Bore.outletT at h2
    have hco' : (Multi.mkBore k c Rd e zu H).outletCoef = some co := hco
    rw [hco'] at h2
    exact (Option.some.inj h2).symm
  have e2 : ∀ v : Fin k, q v = ∑ i, c.mcp i * (T (v + 1) i - T v i) := by
    intro v
    obtain ⟨d1, t1, u1⟩ := hT _ v.2
    obtain ⟨d0, t0, u0⟩ := hT _ v.2.le
    have h5 := h1 v
    unfold Multi.Bore.segmentHeat Multi.Bore.heatCoef at h5
    have t1' : (Multi.mkBore k c Rd e zu H).tempCoef (zu (v + 1)) = some d1 := t1
    have t0' : (Multi.mkBore k c Rd e zu H).tempCoef (zu v) = some d0 := t0
    rw [t1', t0'] at h5
    rw [← Option.some.inj h5, u1, u0]
    exact heat_dot c.mcp d1 d0 x y
  show ∑ v : Fin k, ∑ i, c.mcp i * (T (v + 1) i - T v i) = ∑ j, c.mcpIn j * _
  rw [← e1, ← Finset.sum_congr rfl fun v _ => e2 v, h4]
  exact Finset.sum_congr rfl fun i _ => h3 i

/-- Several U-tubes in parallel or in series. -/
theorem multiple_balanced {n : ℕ} {Rd : Matrix (Multi.P n) (Multi.P n) ℝ} (hR : Multi.Circuit Rd) {c : Multi.Config} {reversible : Bool} {m cp : ℝ}
    (hf : Multi.Flowing n reversible m cp) {e : Multi.Eig n} (he : e.Of (Multi.odeA Rd (Multi.multiple c n reversible m cp).mcp)) {H : ℝ} (hH : 0 < H) :
    Balanced (ofMulti (Multi.multiple c n reversible m cp) Rd e H) := by
  refine multi_balanced fun k zu hz x y => ?_
  obtain ⟨q, T, Tout, Qf, h1, -, h3, -, h5, h6, -⟩ := Multi.multiple_energy_balance hR hf he hH hz (x 0) y
  have hx : (fun _ : Fin 1 => x 0) = x := by funext i; rw [Subsingleton.elim i 0]
  rw [hx] at h1 h3
  refine ⟨q, fun _ => Tout, fun _ => Qf, h1, h3, fun i => ?_, by simpa using h5⟩
  rw [h6, Subsingleton.elim i 0]
  rfl

/-- Independent U-tubes. -/
theorem independent_balanced {n : ℕ} {Rd : Matrix (Multi.P n) (Multi.P n) ℝ} (hR : Multi.Circuit Rd) {reversible : Bool} {m cp : Fin n → ℝ} (hm : ∀ i, m i ≠ 0) (hcp : ∀ i, 0 < cp i)
    (h : ∀ i, 0 < m i ∨ reversible = true) {e : Multi.Eig n} (he : e.Of (Multi.odeA Rd (Multi.independent n reversible m cp).mcp)) {H : ℝ} (hH : 0 < H) :
    Balanced (ofMulti (Multi.independent n reversible m cp) Rd e H) := by
  refine multi_balanced fun k zu hz x y => ?_
  obtain ⟨q, T, Tout, Qf, h1, -, h3, -, h5, h6, -⟩ := Multi.independent_profile hR hH hz hm hcp h he x y
  exact ⟨q, Tout, Qf, h1, h3, h6, h5⟩

/-- Two segments of a U-tube with backward flow. -/
example {r : Py} {t : ℝ} (hr : getHeat (ofUTube (UTube.sample true) (-1) 4) (.num 3) (.arr [5, 6]) (some [1 / 4, 3 / 4]) = .ok r)
    (ht : getTotal (ofUTube (UTube.sample true) (-1) 4) (.num 3) (.arr [5, 6]) (some [1 / 4, 3 / 4]) = .ok t) : r.toList.sum = t :=
  get_balance (Tb := .arr [5, 6]) (q := some [1 / 4, 3 / 4]) (uTube_balanced (UTube.sample_valid true) (by norm_num) (by norm_num) (.inr rfl)) (UTube.sample_valid true).H.le (show Cover 2 (some [1 / 4, 3 / 4]) from ⟨rfl, by norm_num⟩)
    (by intro l hl; cases hl; norm_num) hr ht

/-- Three independent U-tubes with different flow rates. -/
example : ∃ e : Multi.Eig 3, Balanced (ofMulti (Multi.independent 3 true (fun i => i + 1) (fun _ => 4)) (fun _ _ => 1) e 100) := by
  have hR : Multi.Circuit (n := 3) (fun _ _ => 1) := ⟨fun _ _ => one_pos, rfl⟩
  obtain ⟨e, he⟩ := Multi.eig_exists hR (Multi.independent 3 true (fun i => i + 1) (fun _ => 4)).mcp
  exact ⟨e, independent_balanced hR (fun i => by positivity) (fun _ => by norm_num) (fun _ => .inr rfl) he (by norm_num)⟩

end Verif.Pipe.Get
