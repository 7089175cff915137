import Verif.Pipe.MultiEig
import Verif.Pipe.UTubeHeatProps

/-!
# Properties C61, C62: one U-tube in both classes, non-vacuity
-/

noncomputable section

namespace Verif.Pipe.Multi

open Matrix Set

variable {n k : ℕ}

/-! ### Non-vacuity of the theorems on several U-tubes -/

/-- A physical circuit with any number of U-tubes. -/
def sampleRd (n : ℕ) : Matrix (P n) (P n) ℝ := fun i j => if i = j then 1 else 2

theorem sample_circuit (n : ℕ) : Circuit (sampleRd n) := by
  constructor
  · intro i j; unfold sampleRd; split_ifs <;> norm_num
  · ext i j
    rw [Matrix.transpose_apply]
    unfold sampleRd
    simp only [eq_comm]

theorem sample_edges : Edges (fun j => 50 * (j : ℝ)) 2 100 := by
  refine ⟨by norm_num, by norm_num, by norm_num, ?_⟩
  intro i j hij _
  have : (i : ℝ) ≤ j := by exact_mod_cast hij
  simpa using this

/-- The hypotheses of the theorems hold for two U-tubes in series with reversed flow. -/
example : ∃ e : Eig 2, e.Of (odeA (sampleRd 2) (multiple .series 2 true (-3) 4).mcp) ∧ Circuit (sampleRd 2) ∧
    Flowing 2 true (-3) 4 ∧ Edges (fun j => 50 * (j : ℝ)) 2 100 :=
  let ⟨e, he⟩ := eig_exists (sample_circuit 2) _
  ⟨e, he, sample_circuit 2, ⟨by norm_num, by norm_num, by norm_num, Or.inr rfl⟩, sample_edges⟩

/-- The theorems apply to every physical circuit, whatever the decomposition. -/
example {Rd : Matrix (P n) (P n) ℝ} (hR : Circuit Rd) (c : Config) (r : Bool) {m cp : ℝ} (hf : Flowing n r m cp) {H : ℝ} (hH : 0 < H)
    {zu : ℕ → ℝ} (hz : Edges zu k H) (Tin : ℝ) (Tb : Fin k → ℝ) : ∃ e : Eig n, ∃ Tout,
    (mkBore k (multiple c n r m cp) Rd e zu H).outletT (fun _ => Tin) Tb = some Tout :=
  let ⟨e, he⟩ := eig_exists hR _
  let ⟨_, _, _, h, _⟩ := multiple_profile hR hf he hH hz Tin Tb
  ⟨e, _, h⟩

/-- Three independent U-tubes with different flow directions. -/
example : ∃ e : Eig 3, ∃ Tout, (mkBore 2 (independent 3 true ![1, -2, 3] ![4, 4, 5]) (sampleRd 3) e (fun j => 50 * (j : ℝ)) 100).outletT
    ![1, 2, 3] ![4, 5] = some Tout := by
  obtain ⟨e, he⟩ := eig_exists (sample_circuit 3) (independent 3 true ![1, -2, 3] ![4, 4, 5]).mcp
  obtain ⟨_, _, Tout, _, _, _, h, _⟩ := independent_profile (sample_circuit 3) (by norm_num) sample_edges
    (m := ![1, -2, 3]) (cp := ![4, 4, 5]) (fun i => by fin_cases i <;> norm_num)
    (fun i => by fin_cases i <;> norm_num) (fun i => Or.inr rfl) he ![1, 2, 3] ![4, 5]
  exact ⟨e, Tout, h⟩

/-! ### One U-tube -/

/-- Index of the pipe of a single U-tube. -/
def idx : P 1 → Fin 2
  | .inl _ => 0
  | .inr _ => 1

/-- **C62.**  `MultipleUTube` with one U-tube (in either configuration) and `SingleUTube` return the same temperatures, outlet temperature and heat extraction rates. -/
theorem multiple_one {Rd : Fin 2 → Fin 2 → ℝ} (hpos : ∀ i j, 0 < Rd i j) (hs : Rd 0 1 = Rd 1 0) (c : Config) {reversible : Bool} {m cp : ℝ}
    (hf : Flowing 1 reversible m cp) {e : Eig 1} (he : e.Of (odeA (fun i j => Rd (idx i) (idx j)) (multiple c 1 reversible m cp).mcp))
    {zu : ℕ → ℝ} {H : ℝ} (hH : 0 < H) (hz : Edges zu k H) (Tin : ℝ) (Tb : ℕ → ℝ) :
    (∀ z ∈ Icc 0 H, (mkBore k (multiple c 1 reversible m cp) (fun i j => Rd (idx i) (idx j)) e zu H).temperature (fun _ => Tin) (fun v => Tb v) z
      = some fun p => (singleUTube Rd H reversible).temperature zu k m cp Tin Tb z (idx p)) ∧
    (mkBore k (multiple c 1 reversible m cp) (fun i j => Rd (idx i) (idx j)) e zu H).outletT (fun _ => Tin) (fun v => Tb v)
      = some (fun _ => (singleUTube Rd H reversible).outletT zu k m cp Tin Tb) ∧
    (∀ v < k, (mkBore k (multiple c 1 reversible m cp) (fun i j => Rd (idx i) (idx j)) e zu H).segmentHeat zu (fun _ => Tin) (fun v => Tb v) v
      = some ((singleUTube Rd H reversible).segmentHeat zu k m cp Tin Tb v)) ∧
    (mkBore k (multiple c 1 reversible m cp) (fun i j => Rd (idx i) (idx j)) e zu H).fluidHeat (fun _ => Tin) (fun v => Tb v)
      = some (fun _ => (singleUTube Rd H reversible).fluidHeat zu k m cp Tin Tb) := by
  have hR : Circuit (fun i j : P 1 => Rd (idx i) (idx j)) := by
    refine ⟨fun i j => hpos _ _, ?_⟩
    ext i j
    show Rd (idx j) (idx i) = Rd (idx i) (idx j)
    rcases i with i | i <;> rcases j with j | j <;> simp [idx, hs]
  have hv := UTube.singleUTube_valid reversible hH hpos hs
  obtain ⟨t, ht⟩ : ∃ t, t = singleUTube Rd H reversible := ⟨_, rfl⟩
  have htH : t.H = H := by rw [ht]; rfl
  have htG : ∀ i j, t.G i j = 1 / Rd i j := by intro i j; rw [ht]; rfl
  have htr : t.reversible = reversible := by rw [ht]; rfl
  rw [← ht] at hv ⊢
  have hp := UTube.par_passive hv hf.hm hf.hcp
  have hz' : Edges zu k (t.par m cp).H := by show Edges zu k t.H; rw [htH]; exact hz
  obtain ⟨sol, hout⟩ := UPar.profile_solves hp hz' Tin Tb
  have hpf : pipeFlow c 1 m = |m| := by cases c <;> simp [pipeFlow]
  have hpH : (t.par m cp).H = H := htH
  have hrev : t.isReversed m = reversed reversible m := by unfold UTube.isReversed reversed; rw [htr]
  have hdn : ∀ z, t.temperature zu k m cp Tin Tb z (t.iInlet m) = (t.par m cp).downT zu k Tin Tb z := by
    intro z; simp [UTube.temperature, UTube.tempA, UTube.tempB, UPar.downT]
  have hup : ∀ z, t.temperature zu k m cp Tin Tb z (t.iOutlet m) = (t.par m cp).upT zu k Tin Tb z := by
    intro z
    have hne : t.iOutlet m ≠ t.iInlet m := by unfold UTube.iOutlet UTube.iInlet; split_ifs <;> decide
    simp [UTube.temperature, UTube.tempA, UTube.tempB, UPar.upT, hne]
  have hid : ∀ i, idx (downPipe (fun _ => reversed reversible m) i) = t.iInlet m := by
    intro i; unfold downPipe UTube.iInlet; rw [hrev]; split_ifs <;> rfl
  have hiu : ∀ i, idx (upPipe (fun _ => reversed reversible m) i) = t.iOutlet m := by
    intro i; unfold upPipe UTube.iOutlet; rw [hrev]; split_ifs <;> rfl
  have hM : |m| * cp ≠ 0 := (mul_pos (abs_pos.mpr hf.hm) hf.hcp).ne'
  have hflux : ∀ z v, (∀ i, pipeFlux (fun i j => Rd (idx i) (idx j)) (fun p => t.temperature zu k m cp Tin Tb z (idx p)) (Tb v)
        (downPipe (fun _ => reversed reversible m) i) / (|m| * cp)
        = -(t.par m cp).b1 * ((t.par m cp).downT zu k Tin Tb z - Tb v)
          - (t.par m cp).b12 * ((t.par m cp).downT zu k Tin Tb z - (t.par m cp).upT zu k Tin Tb z)) ∧
      (∀ i, -(pipeFlux (fun i j => Rd (idx i) (idx j)) (fun p => t.temperature zu k m cp Tin Tb z (idx p)) (Tb v)
        (upPipe (fun _ => reversed reversible m) i) / (|m| * cp))
        = (t.par m cp).b2 * ((t.par m cp).upT zu k Tin Tb z - Tb v)
          + (t.par m cp).b12 * ((t.par m cp).upT zu k Tin Tb z - (t.par m cp).downT zu k Tin Tb z)) := by
    intro z v
    have key : ∀ (x : Fin 2 → ℝ) (i : Fin 1),
        pipeFlux (fun i j : P 1 => Rd (idx i) (idx j)) (fun p => x (idx p)) (Tb v) (.inl i)
          = (Tb v - x 0) / Rd 0 0 + (x 1 - x 0) / Rd 0 1 ∧
        pipeFlux (fun i j : P 1 => Rd (idx i) (idx j)) (fun p => x (idx p)) (Tb v) (.inr i)
          = (Tb v - x 1) / Rd 1 1 + (x 0 - x 1) / Rd 1 0 := by
      intro x i
      rw [Subsingleton.elim i 0]
      unfold pipeFlux
      have e1 : (Finset.univ : Finset (P 1)).erase (.inl 0) = {.inr 0} := by decide
      have e2 : (Finset.univ : Finset (P 1)).erase (.inr 0) = {.inl 0} := by decide
      rw [e1, e2]
      simp [idx]
    rw [← hdn, ← hup]
    constructor
    · intro i
      unfold downPipe
      simp only [UTube.par, htG, UTube.iInlet, UTube.iOutlet, hrev]
      split_ifs
      · rw [(key _ i).2]; ring
      · rw [(key _ i).1]; ring
    · intro i
      unfold upPipe
      simp only [UTube.par, htG, UTube.iInlet, UTube.iOutlet, hrev]
      split_ifs
      · rw [(key _ i).1, hs]; ring
      · rw [(key _ i).2, hs]; ring
  have hM' : MSol c (reversed reversible m) (pipeFlow c 1 m * cp) (fun i j => Rd (idx i) (idx j)) zu H Tin (fun v : Fin k => Tb v)
      (fun z p => t.temperature zu k m cp Tin Tb z (idx p)) (t.outletT zu k m cp Tin Tb) := by
    rw [hpf]
    refine ⟨?_, ?_, ?_, ?_, ?_⟩
    · intro v z hzv i
      rw [(hflux z v).1 i]
      simp only [hid, hdn]
      exact sol.down v v.2 z hzv
    · intro v z hzv i
      rw [(hflux z v).2 i]
      simp only [hiu, hup]
      exact sol.up v v.2 z hzv
    · have h0 : ∀ j : Fin 2, ContinuousOn (fun z => t.temperature zu k m cp Tin Tb z j) (Icc 0 H) := by
        intro j
        have hj : j = t.iInlet m ∨ j = t.iOutlet m := by
          unfold UTube.iInlet UTube.iOutlet
          split_ifs <;> fin_cases j <;> simp
        rcases hj with rfl | rfl
        · simp only [hdn]; rw [← hpH]; exact sol.contDown
        · simp only [hup]; rw [← hpH]; exact sol.contUp
      exact fun i => h0 (idx i)
    · intro i
      have hb := sol.bottom
      rw [hpH, ← hdn, ← hup] at hb
      show t.temperature zu k m cp Tin Tb H 0 = t.temperature zu k m cp Tin Tb H 1
      unfold UTube.iInlet UTube.iOutlet at hb
      split_ifs at hb
      · exact hb.symm
      · exact hb
    · have hd0 : ∀ i, t.temperature zu k m cp Tin Tb 0 (idx (downPipe (fun _ => reversed reversible m) i)) = Tin := by
        intro i; rw [hid, hdn]; exact sol.inlet
      have hu0 : ∀ i, t.temperature zu k m cp Tin Tb 0 (idx (upPipe (fun _ => reversed reversible m) i)) = t.outletT zu k m cp Tin Tb := by
        intro i; rw [hiu, hup]; exact hout
      simp only [hd0, hu0]
      cases c <;> cases reversed reversible m <;> simp [HeadSpec]
  obtain ⟨T, Tout, g1, g2, -, g4⟩ := multiple_profile hR hf he hH hz Tin (fun v : Fin k => Tb v)
  obtain ⟨g5, g6⟩ := g4 _ _ hM'
  obtain ⟨q, T', Tout', Qf, k1, k2, k3, k4, -, k6, k7⟩ := multiple_energy_balance hR hf he hH hz Tin (fun v : Fin k => Tb v)
  have hT' : T' = T := by
    funext z
    have := k2 z
    rw [g1 z, Option.some.injEq] at this
    exact this.symm
  refine ⟨fun z hzH => ?_, ?_, ?_, ?_⟩
  · rw [g1, ← g5 z hzH]
  · rw [g2, g6]
  · intro v hvk
    have := k1 ⟨v, hvk⟩
    rw [show (v : ℕ) = ((⟨v, hvk⟩ : Fin k) : ℕ) from rfl, this, k7,
      UTube.segment_heat_integral hv hf.hm hf.hcp hz' (hf.dir.imp_right fun h => htr.trans h) Tin Tb v hvk]
    congr 1
    apply intervalIntegral.integral_congr
    intro z hzv
    have hle : zu v ≤ zu (v + 1) := hz.mono v (v + 1) (by omega) hvk
    rw [uIcc_of_le hle] at hzv
    have hzH : z ∈ Icc 0 H := by
      constructor
      · rw [← hz.zero]; exact (hz.mono 0 v (Nat.zero_le _) hvk.le).trans hzv.1
      · rw [← hz.last]; exact hzv.2.trans (hz.mono (v + 1) k hvk le_rfl)
    dsimp only
    rw [hT', ← g5 z hzH]
    simp only [UTube.wallFlux, htG, Fintype.sum_sum_type, Finset.univ_unique, Finset.sum_singleton, idx,
      Fin.sum_univ_two]
    ring
  · rw [k4]
    congr 1
    funext _
    rw [g2, Option.some.injEq] at k3
    have : Tout = Tout' := congrFun k3 0
    rw [k6, ← this, ← g6, (UTube.energy_balance hv hf.hm hf.hcp hz' (hf.dir.imp_right fun h => htr.trans h) Tin Tb).2]

/-! ### Several U-tubes as borehole model of a network -/

/-- `p` holds the coefficients that a network obtains from the borehole `b` for the flow rate `m`. -/
def Represents (b : Bore n 1 1 k) (zu : ℕ → ℝ) (p : Net.Pipe k) (m cp : ℝ) : Prop :=
  b.outletCoef = some (fun _ _ => p.outA m cp, fun _ s => p.outB m cp s) ∧
  ∀ v : Fin k, b.heatCoef zu v = some (fun _ => p.heatA m cp v, fun s => p.heatB m cp v s)

theorem represents_segment {b : Bore n 1 1 k} {zu : ℕ → ℝ} {p : Net.Pipe k} {m cp : ℝ} (h : Represents b zu p m cp) (Tin : ℝ)
    (Tb : Fin k → ℝ) (v : Fin k) :
    b.segmentHeat zu (fun _ => Tin) Tb v = some (p.heatA m cp v * Tin + ∑ s, p.heatB m cp v s * Tb s) := by
  unfold Bore.segmentHeat
  rw [h.2 v]
  simp [dotProduct]

theorem represents_outlet {b : Bore n 1 1 k} {zu : ℕ → ℝ} {p : Net.Pipe k} {m cp : ℝ} (h : Represents b zu p m cp) (Tin : ℝ)
    (Tb : Fin k → ℝ) : b.outletT (fun _ => Tin) Tb = some fun _ => p.outA m cp * Tin + ∑ s, p.outB m cp s * Tb s := by
  unfold Bore.outletT
  rw [h.1]
  refine congrArg some (funext fun i => ?_)
  simp [Matrix.mulVec, dotProduct]

variable {Rd : Matrix (P n) (P n) ℝ} (hR : Circuit Rd) {c : Config} {reversible : Bool} {m cp : ℝ}
  (hf : Flowing n reversible m cp) {e : Eig n} (he : e.Of (odeA Rd (multiple c n reversible m cp).mcp))
  {zu : ℕ → ℝ} {H : ℝ} (hH : 0 < H) (hz : Edges zu k H)
include hR hf he hH hz

omit hz in
/-- Such coefficients exist. -/
theorem represents_exists : ∃ p : Net.Pipe k, Represents (mkBore k (multiple c n reversible m cp) Rd e zu H) zu p m cp := by
  obtain ⟨S, hS⟩ := multiple_regular (k := k) (zu := zu) hR hf he hH
  obtain ⟨b, hb⟩ : ∃ b, b = mkBore k (multiple c n reversible m cp) Rd e zu H := ⟨_, rfl⟩
  rw [← hb] at hS ⊢
  have ho : ∃ A B, b.outletCoef = some (A, B) := by unfold Bore.outletCoef; rw [hS]; exact ⟨_, _, rfl⟩
  have ht : ∀ v, ∃ A B, b.heatCoef zu v = some (A, B) := by
    intro v; unfold Bore.heatCoef Bore.tempCoef; rw [hS]; exact ⟨_, _, rfl⟩
  obtain ⟨A, B, hAB⟩ := ho
  choose A' B' hAB' using ht
  refine ⟨⟨fun _ _ => A 0 0, fun _ _ s => B 0 s, fun _ _ v => A' v 0, fun _ _ v s => B' v s⟩, ?_, ?_⟩
  · rw [hAB]
    congr 2
    · funext i j; rw [Subsingleton.elim i 0, Subsingleton.elim j 0]
    · funext i s; rw [Subsingleton.elim i 0]
  · intro v
    rw [hAB']
    congr 2
    funext j; rw [Subsingleton.elim j 0]

/-- **C35, C40** for several U-tubes: the coefficients satisfy the heat balance (the hypotheses of `Net.segment_heat_balance`) and reproduce equilibrium
(the hypotheses of `Net.network_equilibrium`). -/
theorem multiple_network {p : Net.Pipe k} (hp : Represents (mkBore k (multiple c n reversible m cp) Rd e zu H) zu p m cp) :
    (∑ s, p.heatA m cp s = p.fluidA m cp) ∧ (∀ s', ∑ s, p.heatB m cp s s' = p.fluidB m cp s') ∧
    (p.outA m cp + ∑ s, p.outB m cp s = 1) ∧ (∀ s, p.heatA m cp s + ∑ s', p.heatB m cp s s' = 0) := by
  have key : ∀ (Tin : ℝ) (Tb : Fin k → ℝ), ∑ v, (p.heatA m cp v * Tin + ∑ s, p.heatB m cp v s * Tb s)
      = |m| * cp * (p.outA m cp * Tin + ∑ s, p.outB m cp s * Tb s - Tin) := by
    intro Tin Tb
    obtain ⟨q, T, Tout, Qf, h1, -, h3, -, h5, h6, -⟩ := multiple_energy_balance hR hf he hH hz Tin Tb
    have h7 : ∀ v, q v = p.heatA m cp v * Tin + ∑ s, p.heatB m cp v s * Tb s := by
      intro v
      have := h1 v
      rw [represents_segment hp, Option.some.injEq] at this
      exact this.symm
    rw [represents_outlet hp, Option.some.injEq] at h3
    have h8 : p.outA m cp * Tin + ∑ s, p.outB m cp s * Tb s = Tout := congrFun h3 0
    rw [h8, ← h6, ← h5]
    exact Finset.sum_congr rfl fun v _ => (h7 v).symm
  have heq := multiple_equilibrium hR hf he hH hz 1
  refine ⟨?_, ?_, ?_, ?_⟩
  · have := key 1 (fun _ => 0)
    simp only [mul_one, mul_zero, Finset.sum_const_zero, add_zero] at this
    rw [this]; unfold Net.Pipe.fluidA; ring
  · intro s'
    have := key 0 (Pi.single s' 1)
    simp only [mul_zero, zero_add, sub_zero, Pi.single_apply, mul_ite, mul_one, Finset.sum_ite_eq', Finset.mem_univ, if_true] at this
    rw [this]; rfl
  · have := heq.2
    rw [represents_outlet hp, Option.some.injEq] at this
    have h2 := congrFun this 0
    simpa using h2
  · intro s
    obtain ⟨q, T, Tout, Qf, h1, h2, -, -, -, -, h7⟩ := multiple_energy_balance hR hf he hH hz 1 (fun _ : Fin k => 1)
    have h3 := h1 s
    rw [represents_segment hp, Option.some.injEq] at h3
    have h4 : q s = 0 := by
      rw [h7]
      rw [intervalIntegral.integral_congr (g := fun _ => 0)]
      · simp
      · intro z hzs
        have hle : zu s ≤ zu (s + 1) := hz.mono s (s + 1) (by omega) s.2
        rw [uIcc_of_le hle] at hzs
        have hzH : z ∈ Icc 0 H := by
          constructor
          · rw [← hz.zero]; exact (hz.mono 0 s (Nat.zero_le _) s.2.le).trans hzs.1
          · rw [← hz.last]; exact hzs.2.trans (hz.mono (s + 1) k s.2 le_rfl)
        have h5 := heq.1 z hzH
        rw [h2, Option.some.injEq] at h5
        simp [h5]
    rw [h4] at h3
    simpa using h3

end Verif.Pipe.Multi
