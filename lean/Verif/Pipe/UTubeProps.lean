import Verif.Pipe.UTubeLemmas
import Mathlib.Analysis.Calculus.Deriv.MeanValue
import Mathlib.MeasureTheory.Integral.IntervalIntegral.FundThmCalculus

/-!
# Properties C38, C39, C40, C41, C60: the single U-tube
-/

noncomputable section

namespace Verif.Pipe

open Real Set

/-- Specification: `zu 0 = 0 ≤ zu 1 ≤ ... ≤ zu n = H` are the edges of `n ≥ 1` segments. -/
structure Edges (zu : ℕ → ℝ) (n : ℕ) (H : ℝ) : Prop where
  pos : 0 < n
  zero : zu 0 = 0
  last : zu n = H
  mono : ∀ i j, i ≤ j → j ≤ n → zu i ≤ zu j

namespace UPar

variable {p : UPar} (hp : p.Passive) {zu : ℕ → ℝ} {n : ℕ} (hz : Edges zu n p.H)
include hp

/-! ### C38 -/

omit hp in
theorem outEdge_eq (z : ℝ) : p.outEdge z = 2 * p.s * p.C * (p.Ep (-z) - p.e * p.Em (-z)) := by
  have h1 : exp (-z * (p.beta + p.gamma)) = p.Ep (-z) := by unfold Ep; congr 1; ring
  have h2 : exp (-z * (p.beta - p.gamma) - 2 * p.gamma * p.H) = p.e * p.Em (-z) := by
    unfold Em e; rw [← exp_add]; congr 1; ring
  unfold outEdge
  rw [h1, h2, sum_div]

theorem outEdge_antitone {z z' : ℝ} (h : z ≤ z') : p.outEdge z' ≤ p.outEdge z := by
  rw [outEdge_eq, outEdge_eq]
  apply mul_le_mul_of_nonneg_left _ (by have := s_pos hp; have := C_pos hp; positivity)
  have h1 : p.Ep (-z') ≤ p.Ep (-z) := by
    unfold Ep; apply exp_le_exp.mpr; have := sum_pos hp; nlinarith
  have h2 : p.Em (-z) ≤ p.Em (-z') := by
    unfold Em; apply exp_le_exp.mpr; have := diff_neg hp; nlinarith
  have := e_pos (p := p)
  nlinarith

omit hp in
theorem Em_H : p.e * p.Ep p.H = p.Em p.H := by
  unfold e Ep Em; rw [← exp_add]; congr 1; ring

theorem outEdge_zero : p.outEdge 0 = 1 - p.outA := by
  rw [outEdge_eq]
  have h1 : p.Ep (-0) = 1 := by simp [Ep]
  have h2 : p.Em (-0) = 1 := by simp [Em]
  have h3 : p.outA = p.C * (p.A + p.B * p.e) := by rw [C_def]; unfold outA e; ring
  rw [h1, h2, h3]
  have := C_mul hp
  rw [A_eq, B_eq] at *
  linear_combination this

omit hp in
theorem outEdge_H : p.outEdge p.H = 0 := by
  rw [outEdge_eq]
  have h : p.Ep (-p.H) = p.e * p.Em (-p.H) := by
    unfold e Ep Em; rw [← exp_add]; congr 1; ring
  rw [h]; ring

omit hp in
theorem outB_sum (zu : ℕ → ℝ) (n : ℕ) : ∑ u ∈ Finset.range n, p.outB zu u = p.outEdge (zu 0) - p.outEdge (zu n) := by
  unfold outB
  have := Finset.sum_range_sub' (fun k => p.outEdge (zu k)) n
  rw [← this]
  exact Finset.sum_congr rfl fun u _ => by ring

include hz in
/-- **C38.**  The outlet temperature is a weighted average of the inlet temperature and the wall temperatures:
the weights sum to one, those of the walls are non-negative, and so is that of the inlet
if the pipe to pipe conductance is non-negative. -/
theorem outlet_convex :
    p.outA + ∑ u ∈ Finset.range n, p.outB zu u = 1 ∧ (∀ u < n, 0 ≤ p.outB zu u) ∧ p.outA ≤ 1 ∧
    (0 ≤ p.b12 → 0 < p.outA) := by
  refine ⟨?_, ?_, ?_, ?_⟩
  · rw [outB_sum, hz.zero, hz.last, outEdge_zero hp, outEdge_H]; ring
  · intro u hu
    have := outEdge_antitone hp (hz.mono u (u + 1) (by omega) (by omega))
    unfold outB; linarith
  · have h := outEdge_antitone hp hp.H
    rw [outEdge_H, outEdge_zero hp] at h
    linarith
  · intro h12
    have hb : 0 ≤ p.b := div_nonneg h12 (gamma_pos hp).le
    have hs := s_pos hp
    have hq := quad hp
    have hA : 0 ≤ p.A := by
      rw [A_eq]
      have : 0 ≤ p.b * p.s := by positivity
      nlinarith
    have hB : 0 < p.B := by rw [B_eq]; linarith
    have he := e_pos (p := p)
    have h3 : p.outA = (p.A + p.B * p.e) / (p.B + p.A * p.e) := rfl
    rw [h3]
    have := den_pos hp
    positivity

include hz in
/-- **C38** (bounds).  The outlet temperature lies between the smallest and the largest of the inlet and wall
temperatures, for a non-negative pipe to pipe conductance; at equal temperatures it is that
temperature. -/
theorem outlet_between (h12 : 0 ≤ p.b12) (Tin : ℝ) (Tb : ℕ → ℝ) (lo hi : ℝ) (hin : lo ≤ Tin ∧ Tin ≤ hi)
    (hw : ∀ u < n, lo ≤ Tb u ∧ Tb u ≤ hi) : lo ≤ p.outletT zu n Tin Tb ∧ p.outletT zu n Tin Tb ≤ hi := by
  obtain ⟨h1, h2, -, h4⟩ := outlet_convex hp hz
  have h4 := h4 h12
  unfold outletT
  constructor
  · calc lo = p.outA * lo + ∑ u ∈ Finset.range n, p.outB zu u * lo := by
          rw [← Finset.sum_mul, ← add_mul, h1, one_mul]
      _ ≤ _ := add_le_add (mul_le_mul_of_nonneg_left hin.1 h4.le)
          (Finset.sum_le_sum fun u hu => mul_le_mul_of_nonneg_left (hw u (Finset.mem_range.mp hu)).1
            (h2 u (Finset.mem_range.mp hu)))
  · calc _ ≤ p.outA * hi + ∑ u ∈ Finset.range n, p.outB zu u * hi :=
          add_le_add (mul_le_mul_of_nonneg_left hin.2 h4.le)
          (Finset.sum_le_sum fun u hu => mul_le_mul_of_nonneg_left (hw u (Finset.mem_range.mp hu)).2
            (h2 u (Finset.mem_range.mp hu)))
      _ = hi := by rw [← Finset.sum_mul, ← add_mul, h1, one_mul]

/-! ### C39 -/

omit hp in
theorem edge_above {z u : ℝ} (h : u ≤ z) : p.edgeDown z u = p.downP z u ∧ p.edgeUp z u = p.upP z u := by
  unfold edgeDown edgeUp
  rw [if_pos (by linarith), if_pos (by linarith)]
  exact ⟨rfl, rfl⟩

theorem edge_below {z u : ℝ} (h : z ≤ u) : p.edgeDown z u = p.downM z u ∧ p.edgeUp z u = p.upM z u := by
  rcases h.lt_or_eq with h | h
  · unfold edgeDown edgeUp
    rw [if_neg (by linarith), if_neg (by linarith)]
    exact ⟨rfl, rfl⟩
  · subst h
    rw [(edge_above le_rfl).1, (edge_above le_rfl).2, down_match hp, up_match hp]
    exact ⟨rfl, rfl⟩

/-- Amplitudes of the modes on segment `k`. -/
def ampP (p : UPar) (zu : ℕ → ℝ) (k j : ℕ) : ℝ := if j ≤ k then p.cpP (zu j) else p.cpM (zu j)
def ampM (p : UPar) (zu : ℕ → ℝ) (k j : ℕ) : ℝ := if j ≤ k then p.cmP (zu j) else p.cmM (zu j)
def ampX (p : UPar) (zu : ℕ → ℝ) (n : ℕ) (Tin : ℝ) (Tb : ℕ → ℝ) (k : ℕ) : ℝ :=
  p.C * p.e * Tin + ∑ u ∈ Finset.range n, p.C * (ampP p zu k (u + 1) - ampP p zu k u) * Tb u
def ampY (p : UPar) (zu : ℕ → ℝ) (n : ℕ) (Tin : ℝ) (Tb : ℕ → ℝ) (k : ℕ) : ℝ :=
  p.C * Tin + ∑ u ∈ Finset.range n, p.C * (ampM p zu k (u + 1) - ampM p zu k u) * Tb u

include hz in
theorem edge_form {k j : ℕ} (hk : k < n) (hj : j ≤ n) {z : ℝ} (h : z ∈ Icc (zu k) (zu (k + 1))) :
    p.edgeDown z (zu j) = (if j ≤ k then 0 else p.B + p.A * p.e) + p.A * ampP p zu k j * p.Ep z
      + p.B * ampM p zu k j * p.Em z ∧
    p.edgeUp z (zu j) = (if j ≤ k then 0 else p.B + p.A * p.e) + p.B * ampP p zu k j * p.Ep z
      + p.A * ampM p zu k j * p.Em z := by
  unfold ampP ampM
  by_cases hjk : j ≤ k
  · have h1 : zu j ≤ z := le_trans (hz.mono j k hjk hk.le) h.1
    rw [(edge_above h1).1, (edge_above h1).2, downP_eq hp, upP_eq hp]
    simp only [if_pos hjk]
    exact ⟨by ring, by ring⟩
  · have h1 : z ≤ zu j := le_trans h.2 (hz.mono (k + 1) j (by omega) hj)
    rw [(edge_below hp h1).1, (edge_below hp h1).2, downM_eq hp, upM_eq hp]
    simp only [if_neg hjk]
    exact ⟨trivial, trivial⟩

theorem step_sum {k : ℕ} (hk : k < n) (Tb : ℕ → ℝ) :
    ∑ u ∈ Finset.range n, p.C * ((if u + 1 ≤ k then 0 else p.B + p.A * p.e) - (if u ≤ k then 0 else p.B + p.A * p.e))
      * Tb u = Tb k := by
  rw [Finset.sum_eq_single k]
  · rw [if_neg (by omega), if_pos le_rfl, sub_zero, C_mul hp, one_mul]
  · intro u _ huk
    rcases lt_or_gt_of_ne huk with h | h
    · rw [if_pos (by omega), if_pos (by omega)]; ring
    · rw [if_neg (by omega), if_neg (by omega)]; ring
  · intro h
    exact absurd (Finset.mem_range.mpr hk) h

include hz in
/-- On a closed segment the profile is its wall temperature plus a combination of the modes. -/
theorem profile_closed (Tin : ℝ) (Tb : ℕ → ℝ) {k : ℕ} (hk : k < n) {z : ℝ} (h : z ∈ Icc (zu k) (zu (k + 1))) :
    p.downT zu n Tin Tb z = Tb k + p.A * ampX p zu n Tin Tb k * p.Ep z + p.B * ampY p zu n Tin Tb k * p.Em z ∧
    p.upT zu n Tin Tb z = Tb k + p.B * ampX p zu n Tin Tb k * p.Ep z + p.A * ampY p zu n Tin Tb k * p.Em z := by
  have hs := step_sum hp hk Tb
  unfold downT upT ampX ampY wallDown wallUp
  rw [inDown_eq hp, inUp_eq hp]
  have h1 : ∀ u ∈ Finset.range n, p.C * (p.edgeDown z (zu (u + 1)) - p.edgeDown z (zu u)) * Tb u
      = p.C * ((if u + 1 ≤ k then 0 else p.B + p.A * p.e) - (if u ≤ k then 0 else p.B + p.A * p.e)) * Tb u
        + p.A * p.Ep z * (p.C * (ampP p zu k (u + 1) - ampP p zu k u) * Tb u)
        + p.B * p.Em z * (p.C * (ampM p zu k (u + 1) - ampM p zu k u) * Tb u) := by
    intro u hu
    have hu := Finset.mem_range.mp hu
    rw [(edge_form hp hz hk (by omega) h).1, (edge_form hp hz hk hu.le h).1]
    ring
  have h2 : ∀ u ∈ Finset.range n, p.C * (p.edgeUp z (zu (u + 1)) - p.edgeUp z (zu u)) * Tb u
      = p.C * ((if u + 1 ≤ k then 0 else p.B + p.A * p.e) - (if u ≤ k then 0 else p.B + p.A * p.e)) * Tb u
        + p.B * p.Ep z * (p.C * (ampP p zu k (u + 1) - ampP p zu k u) * Tb u)
        + p.A * p.Em z * (p.C * (ampM p zu k (u + 1) - ampM p zu k u) * Tb u) := by
    intro u hu
    have hu := Finset.mem_range.mp hu
    rw [(edge_form hp hz hk (by omega) h).2, (edge_form hp hz hk hu.le h).2]
    ring
  rw [Finset.sum_congr rfl h1, Finset.sum_congr rfl h2]
  simp only [Finset.sum_add_distrib, ← Finset.mul_sum]
  rw [hs]
  exact ⟨by ring, by ring⟩

/-- Specification: `d`, `u` are fluid temperatures along the downward and upward pipes that satisfy the
energy balance of the fluid on every segment, are continuous, start at the inlet temperature and are equal
at the bottom. -/
structure Solution (p : UPar) (zu : ℕ → ℝ) (n : ℕ) (Tin : ℝ) (Tb : ℕ → ℝ) (d u : ℝ → ℝ) : Prop where
  down : ∀ k < n, ∀ z ∈ Ioo (zu k) (zu (k + 1)), HasDerivAt d (-p.b1 * (d z - Tb k) - p.b12 * (d z - u z)) z
  up : ∀ k < n, ∀ z ∈ Ioo (zu k) (zu (k + 1)), HasDerivAt u (p.b2 * (u z - Tb k) + p.b12 * (u z - d z)) z
  contDown : ContinuousOn d (Icc 0 p.H)
  contUp : ContinuousOn u (Icc 0 p.H)
  inlet : d 0 = Tin
  bottom : d p.H = u p.H

theorem edge_continuous (u : ℝ) : Continuous (fun z => p.edgeDown z u) ∧ Continuous (fun z => p.edgeUp z u) := by
  have c1 : Continuous fun z => p.downP z u := by unfold downP; fun_prop
  have c2 : Continuous fun z => p.downM z u := by unfold downM; fun_prop
  have c3 : Continuous fun z => p.upP z u := by unfold upP; fun_prop
  have c4 : Continuous fun z => p.upM z u := by unfold upM; fun_prop
  constructor
  · unfold edgeDown
    refine Continuous.if_le c1 c2 continuous_const (by fun_prop) ?_
    intro z hz
    have : z = u := by linarith
    rw [this]; exact down_match hp u
  · unfold edgeUp
    refine Continuous.if_le c3 c4 continuous_const (by fun_prop) ?_
    intro z hz
    have : z = u := by linarith
    rw [this]; exact up_match hp u

theorem profile_continuous (zu : ℕ → ℝ) (n : ℕ) (Tin : ℝ) (Tb : ℕ → ℝ) :
    Continuous (p.downT zu n Tin Tb) ∧ Continuous (p.upT zu n Tin Tb) := by
  have hc := fun u => (edge_continuous hp u)
  constructor
  · unfold downT wallDown
    refine Continuous.add ?_ (continuous_finsetSum _ fun u _ => ?_)
    · unfold inDown; fun_prop
    · exact (continuous_const.mul ((hc _).1.sub (hc _).1)).mul continuous_const
  · unfold upT wallUp
    refine Continuous.add ?_ (continuous_finsetSum _ fun u _ => ?_)
    · unfold inUp; fun_prop
    · exact (continuous_const.mul ((hc _).2.sub (hc _).2)).mul continuous_const

theorem edge_top {u : ℝ} (h : 0 ≤ u) : p.edgeDown 0 u = p.B + p.A * p.e ∧
    p.C * p.edgeUp 0 u = 1 - p.outEdge u := by
  rw [(edge_below hp h).1, (edge_below hp h).2, downM_eq hp, upM_eq hp, outEdge_eq]
  have h1 : p.Ep 0 = 1 := by simp [Ep]
  have h2 : p.Em 0 = 1 := by simp [Em]
  have hC := C_mul hp
  rw [h1, h2]
  unfold cpM cmM
  refine ⟨by ring, ?_⟩
  rw [A_eq, B_eq] at *
  linear_combination hC

theorem edge_bottom {u : ℝ} (h : u ≤ p.H) : p.edgeDown p.H u = p.edgeUp p.H u := by
  rw [(edge_above h).1, (edge_above h).2, downP_eq hp, upP_eq hp]
  have hE := Em_H (p := p)
  rw [← hE]
  unfold cpP cmP
  ring

include hz in
/-- **C39.**  The fluid temperature profile satisfies the energy balance along the borehole, is continuous,
equals the inlet temperature at the top of the downward pipe, is the same in both pipes at the
bottom, and gives the outlet temperature at the top of the upward pipe. -/
theorem profile_solves (Tin : ℝ) (Tb : ℕ → ℝ) :
    Solution p zu n Tin Tb (p.downT zu n Tin Tb) (p.upT zu n Tin Tb) ∧
    p.upT zu n Tin Tb 0 = p.outletT zu n Tin Tb := by
  have hnn : ∀ j ≤ n, 0 ≤ zu j := fun j hj => by rw [← hz.zero]; exact hz.mono 0 j (Nat.zero_le _) hj
  have hle : ∀ j ≤ n, zu j ≤ p.H := fun j hj => by rw [← hz.last]; exact hz.mono j n hj le_rfl
  have hode : ∀ k < n, ∀ z ∈ Ioo (zu k) (zu (k + 1)),
      HasDerivAt (p.downT zu n Tin Tb) (-p.b1 * (p.downT zu n Tin Tb z - Tb k)
        - p.b12 * (p.downT zu n Tin Tb z - p.upT zu n Tin Tb z)) z ∧
      HasDerivAt (p.upT zu n Tin Tb) (p.b2 * (p.upT zu n Tin Tb z - Tb k)
        + p.b12 * (p.upT zu n Tin Tb z - p.downT zu n Tin Tb z)) z := by
    intro k hk z hzk
    obtain ⟨m1, m2⟩ := mode_ode hp (Tb k) (ampX p zu n Tin Tb k) (ampY p zu n Tin Tb k) z
    obtain ⟨f1, f2⟩ := profile_closed hp hz Tin Tb hk (Ioo_subset_Icc_self hzk)
    rw [← f1, ← f2] at m1 m2
    have hev : ∀ᶠ w in nhds z, w ∈ Icc (zu k) (zu (k + 1)) := Icc_mem_nhds hzk.1 hzk.2
    refine ⟨m1.congr_of_eventuallyEq ?_, m2.congr_of_eventuallyEq ?_⟩
    · exact hev.mono fun w hw => (profile_closed hp hz Tin Tb hk hw).1
    · exact hev.mono fun w hw => (profile_closed hp hz Tin Tb hk hw).2
  obtain ⟨c1, c2⟩ := profile_continuous hp zu n Tin Tb
  refine ⟨⟨fun k hk z h => (hode k hk z h).1, fun k hk z h => (hode k hk z h).2, c1.continuousOn, c2.continuousOn,
    ?_, ?_⟩, ?_⟩
  · unfold downT
    have hsum : ∑ u ∈ Finset.range n, p.wallDown zu 0 u * Tb u = 0 := by
      apply Finset.sum_eq_zero
      intro u hu
      have hu := Finset.mem_range.mp hu
      unfold wallDown
      rw [(edge_top hp (hnn (u + 1) (by omega))).1, (edge_top hp (hnn u hu.le)).1]
      ring
    rw [hsum, inDown_eq hp]
    have h1 : p.Ep 0 = 1 := by simp [Ep]
    have h2 : p.Em 0 = 1 := by simp [Em]
    rw [h1, h2]
    linear_combination Tin * C_mul hp
  · unfold downT upT
    congr 1
    · rw [inDown_eq hp, inUp_eq hp, ← Em_H]; ring
    · apply Finset.sum_congr rfl
      intro u hu
      have hu := Finset.mem_range.mp hu
      unfold wallDown wallUp
      rw [edge_bottom hp (hle (u + 1) (by omega)), edge_bottom hp (hle u hu.le)]
  · unfold upT outletT
    congr 1
    · rw [inUp_eq hp]
      have h1 : p.Ep 0 = 1 := by simp [Ep]
      have h2 : p.Em 0 = 1 := by simp [Em]
      have h3 : p.outA = p.C * (p.A + p.B * p.e) := by rw [C_def]; unfold outA e; ring
      rw [h1, h2, h3]; ring
    · apply Finset.sum_congr rfl
      intro u hu
      have hu := Finset.mem_range.mp hu
      have e1 := (edge_top hp (hnn (u + 1) (by omega))).2
      have e2 := (edge_top hp (hnn u hu.le)).2
      unfold wallUp outB
      linear_combination (Tb u) * e1 - (Tb u) * e2

omit hp in
/-- A continuous function with derivative zero inside all segments is constant. -/
theorem const_on_segments {H : ℝ} (hz : Edges zu n H) (f : ℝ → ℝ) (hc : ContinuousOn f (Icc 0 H))
    (hd : ∀ k < n, ∀ z ∈ Ioo (zu k) (zu (k + 1)), HasDerivAt f 0 z) (z : ℝ) (h : z ∈ Icc 0 H) : f z = f 0 := by
  have seg : ∀ k < n, ∀ z ∈ Icc (zu k) (zu (k + 1)), f z = f (zu k) := by
    intro k hk w hw
    rcases hw.1.lt_or_eq with h1 | h1
    · have hsub : Icc (zu k) w ⊆ Icc 0 H := by
        apply Icc_subset_Icc
        · rw [← hz.zero]; exact hz.mono 0 k (Nat.zero_le _) hk.le
        · rw [← hz.last]; exact le_trans hw.2 (hz.mono (k + 1) n (by omega) le_rfl)
      obtain ⟨c, hc1, hc2⟩ := exists_hasDerivAt_eq_slope f (fun _ => 0) h1 (hc.mono hsub)
        (fun x hx => hd k hk x ⟨hx.1, lt_of_lt_of_le hx.2 hw.2⟩)
      have : w - zu k ≠ 0 := by linarith
      have h2 := hc2.symm
      rw [div_eq_iff this] at h2
      linarith
    · rw [h1]
  have edges : ∀ k ≤ n, f (zu k) = f 0 := by
    intro k
    induction k with
    | zero => intro _; rw [hz.zero]
    | succ k ih =>
      intro hk
      rw [seg k (by omega) (zu (k + 1)) ⟨hz.mono k (k + 1) (by omega) hk, le_rfl⟩, ih (by omega)]
  -- the segment containing z
  have : ∀ k ≤ n, zu 0 ≤ z → z ≤ zu k → f z = f 0 := by
    intro k
    induction k with
    | zero =>
      intro _ h0 h1
      have : z = zu 0 := le_antisymm h1 h0
      rw [this, hz.zero]
    | succ k ih =>
      intro hk h0 h1
      rcases le_or_gt z (zu k) with h2 | h2
      · exact ih (by omega) h0 h2
      · rw [seg k (by omega) z ⟨h2.le, h1⟩, edges k (by omega)]
  exact this n le_rfl (by rw [hz.zero]; exact h.1) (by rw [hz.last]; exact h.2)

include hz in
/-- **C39** (uniqueness).  The profile returned is the only one that satisfies the energy balance with these
inlet and wall temperatures. -/
theorem profile_unique (Tin : ℝ) (Tb : ℕ → ℝ) (d u : ℝ → ℝ) (h : Solution p zu n Tin Tb d u) (z : ℝ)
    (hzH : z ∈ Icc 0 p.H) : d z = p.downT zu n Tin Tb z ∧ u z = p.upT zu n Tin Tb z := by
  obtain ⟨g, -⟩ := profile_solves hp hz Tin Tb
  obtain ⟨D, hD⟩ : ∃ D, D = p.downT zu n Tin Tb := ⟨_, rfl⟩
  obtain ⟨U, hU⟩ : ∃ U, U = p.upT zu n Tin Tb := ⟨_, rfl⟩
  rw [← hD, ← hU] at g ⊢
  have hγ := gamma_pos hp
  have q := quad hp
  -- amplitudes of the difference
  have cP : Continuous p.Ep := by unfold Ep; fun_prop
  have cM : Continuous p.Em := by unfold Em; fun_prop
  have hF : ∀ z ∈ Icc 0 p.H, (p.A * (d z - D z) - p.B * (u z - U z)) * p.Ep (-z)
      = (p.A * (d 0 - D 0) - p.B * (u 0 - U 0)) * p.Ep (-0) := by
    apply const_on_segments hz (fun z => (p.A * (d z - D z) - p.B * (u z - U z)) * p.Ep (-z))
    · refine ContinuousOn.mul ?_ (cP.comp continuous_neg).continuousOn
      exact (continuousOn_const.mul (h.contDown.sub g.contDown)).sub
        (continuousOn_const.mul (h.contUp.sub g.contUp))
    · intro k hk w hw
      have e1 : HasDerivAt (fun z => p.Ep (-z)) (-((p.beta + p.gamma) * p.Ep (-w))) w := by
        have := (Ep_deriv (p := p) (-w)).comp w (hasDerivAt_neg w)
        refine this.congr_deriv ?_
        ring
      have e2 : HasDerivAt (fun z => (p.A * (d z - D z) - p.B * (u z - U z)) * p.Ep (-z)) _ w :=
        ((((h.down k hk w hw).sub (g.down k hk w hw)).const_mul p.A).sub
          (((h.up k hk w hw).sub (g.up k hk w hw)).const_mul p.B)).mul e1
      refine e2.congr_deriv ?_
      simp only [Pi.sub_apply]
      rw [b1_eq hp, b2_eq hp, b12_eq hp, A_eq, B_eq]
      linear_combination (p.gamma * p.Ep (-w) * (d w - D w - (u w - U w))) * q
  have hG : ∀ z ∈ Icc 0 p.H, (p.B * (d z - D z) - p.A * (u z - U z)) * p.Em (-z)
      = (p.B * (d 0 - D 0) - p.A * (u 0 - U 0)) * p.Em (-0) := by
    apply const_on_segments hz (fun z => (p.B * (d z - D z) - p.A * (u z - U z)) * p.Em (-z))
    · refine ContinuousOn.mul ?_ (cM.comp continuous_neg).continuousOn
      exact (continuousOn_const.mul (h.contDown.sub g.contDown)).sub
        (continuousOn_const.mul (h.contUp.sub g.contUp))
    · intro k hk w hw
      have e1 : HasDerivAt (fun z => p.Em (-z)) (-((p.beta - p.gamma) * p.Em (-w))) w := by
        have := (Em_deriv (p := p) (-w)).comp w (hasDerivAt_neg w)
        refine this.congr_deriv ?_
        ring
      have e2 : HasDerivAt (fun z => (p.B * (d z - D z) - p.A * (u z - U z)) * p.Em (-z)) _ w :=
        ((((h.down k hk w hw).sub (g.down k hk w hw)).const_mul p.B).sub
          (((h.up k hk w hw).sub (g.up k hk w hw)).const_mul p.A)).mul e1
      refine e2.congr_deriv ?_
      simp only [Pi.sub_apply]
      rw [b1_eq hp, b2_eq hp, b12_eq hp, A_eq, B_eq]
      linear_combination (-p.gamma * p.Em (-w) * (d w - D w - (u w - U w))) * q
  have hPH := hF p.H ⟨hp.H, le_rfl⟩
  have hMH := hG p.H ⟨hp.H, le_rfl⟩
  have h0 : d 0 - D 0 = 0 := by rw [h.inlet, g.inlet]; ring
  have hb : d p.H - D p.H = u p.H - U p.H := by rw [h.bottom, g.bottom]
  have n0 : p.Ep (-0) = 1 := by simp [Ep]
  have n1 : p.Em (-0) = 1 := by simp [Em]
  have hs := s_pos hp
  have hd := den_pos hp
  have hEp : 0 < p.Ep (-p.H) := exp_pos _
  have hEm : 0 < p.Em (-p.H) := exp_pos _
  have hEe : p.Ep (-p.H) = p.e * p.Em (-p.H) := by
    unfold e Ep Em; rw [← exp_add]; congr 1; ring
  rw [h0, n0] at hPH
  rw [h0, n1] at hMH
  rw [hb, hEe] at hPH
  rw [hb] at hMH
  -- the upward difference at the top vanishes
  have hu0 : u 0 - U 0 = 0 := by
    have : (p.B + p.A * p.e) * (u 0 - U 0) = 0 := by
      rw [A_eq, B_eq] at *
      linear_combination hPH + p.e * hMH
    exact (mul_eq_zero.mp this).resolve_left hd.ne'
  have f1 := hF z hzH
  have f2 := hG z hzH
  rw [h0, hu0, n0] at f1
  rw [h0, hu0, n1] at f2
  have p1 : 0 < p.Ep (-z) := exp_pos _
  have p2 : 0 < p.Em (-z) := exp_pos _
  have k1 : p.A * (d z - D z) - p.B * (u z - U z) = 0 := by
    have : (p.A * (d z - D z) - p.B * (u z - U z)) * p.Ep (-z) = 0 := by rw [f1]; ring
    exact (mul_eq_zero.mp this).resolve_right p1.ne'
  have k2 : p.B * (d z - D z) - p.A * (u z - U z) = 0 := by
    have : (p.B * (d z - D z) - p.A * (u z - U z)) * p.Em (-z) = 0 := by rw [f2]; ring
    exact (mul_eq_zero.mp this).resolve_right p2.ne'
  rw [A_eq, B_eq] at k1 k2
  have k3 : 4 * p.s * (d z - D z) = 0 := by linear_combination (-(1 - p.s)) * k1 + (1 + p.s) * k2
  have k4 : 4 * p.s * (u z - U z) = 0 := by linear_combination (-(1 + p.s)) * k1 + (1 - p.s) * k2
  have h4 : 4 * p.s ≠ 0 := by positivity
  constructor
  · linarith [(mul_eq_zero.mp k3).resolve_left h4]
  · linarith [(mul_eq_zero.mp k4).resolve_left h4]

/-- Non-vacuity of the hypotheses above: a passive circuit, unequal conductances, three unequal segments. -/
def samplePar : UPar := ⟨1 / 100, 1 / 50, 1 / 30, 60⟩

omit hp in
theorem samplePar_passive : samplePar.Passive :=
  passive_of_pos (by norm_num [samplePar]) (by norm_num [samplePar]) (by norm_num [samplePar]) (by norm_num [samplePar])

omit hp in
theorem sampleEdges : Edges (fun k => 5 * (k : ℝ) * (k + 1)) 3 samplePar.H :=
  ⟨by norm_num, by norm_num, by norm_num [samplePar], fun i j hij _ => by
    have h1 : (i : ℝ) ≤ j := by exact_mod_cast hij
    have h2 : (0 : ℝ) ≤ i := Nat.cast_nonneg i
    nlinarith⟩

example := outlet_convex samplePar_passive sampleEdges
example : (15 : ℝ) ≤ samplePar.outletT (fun k => 5 * (k : ℝ) * (k + 1)) 3 20 (fun u => 15 + u) :=
  (outlet_between samplePar_passive sampleEdges (by norm_num [samplePar]) 20 (fun u => 15 + u) 15 20 (by norm_num)
    (fun u hu => by
      have : (u : ℝ) ≤ 2 := by exact_mod_cast (by omega : u ≤ 2)
      constructor <;> [linarith [(Nat.cast_nonneg u : (0 : ℝ) ≤ u)]; linarith])).1
example := profile_solves samplePar_passive sampleEdges 20 (fun u => 15 + u)
example := fun d u h => profile_unique samplePar_passive sampleEdges 20 (fun u => 15 + u) d u h

end UPar

end Verif.Pipe
