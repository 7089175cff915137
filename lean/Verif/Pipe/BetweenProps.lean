import Verif.Pipe.DissProps
import Verif.Net.BetweenNetProps

/-!
# Property C107 (boreholes): fluid temperatures lie between the extremes of the inlet and wall temperatures
-/

noncomputable section

namespace Verif.Pipe

open Real Set

/-! ### A maximum principle for pipes that exchange heat -/

variable {zu : ℕ → ℝ} {k : ℕ} {H : ℝ}

/-- A temperature that attains its lower bound, and can only rise from it along `z`, is at the bound at the top. -/
theorem travel_top (hz : Edges zu k H) {u u' : ℝ → ℝ} {m S : ℝ} (hc : ContinuousOn u (Icc 0 H)) (hm : ∀ z ∈ Icc 0 H, m ≤ u z)
    (hd : ∀ v < k, ∀ z ∈ Ioo (zu v) (zu (v + 1)), HasDerivAt u (u' z) z ∧ -(S * (u z - m)) ≤ u' z) : ∀ v ≤ k, ∀ z ∈ Icc 0 (zu v), u z = m → u 0 = m := by
  intro v
  induction v with
  | zero =>
    intro _ z hzv he
    rw [hz.zero] at hzv
    rw [← he, le_antisymm hzv.2 hzv.1]
  | succ v ih =>
    intro hv z hzv he
    rcases le_or_gt z (zu v) with hle | hgt
    · exact ih (by omega) z ⟨hzv.1, hle⟩ he
    · have hv0 : 0 ≤ zu v := by rw [← hz.zero]; exact hz.mono 0 v (Nat.zero_le _) (by omega)
      have hsub : Icc (zu v) z ⊆ Icc 0 H := (Icc_subset_Icc_right hzv.2).trans (hz.sub hv)
      have key := le_of_deriv_nonneg (f := fun z => exp (S * z) * (u z - m)) (f' := fun z => exp (S * z) * S * (u z - m) + exp (S * z) * u' z) hgt.le
        ((by fun_prop : Continuous fun z => exp (S * z)).continuousOn.mul ((hc.mono hsub).sub continuousOn_const))
        (fun y hy => by
          have h1 := (hd v hv y ⟨hy.1, hy.2.trans_le hzv.2⟩).1
          have h2 : HasDerivAt (fun z => exp (S * z)) (exp (S * y) * S) y := by
            have := ((hasDerivAt_id y).const_mul S).exp
            simpa using this
          exact h2.mul (h1.sub_const m))
        (fun y hy => by
          have h1 := (hd v hv y ⟨hy.1, hy.2.trans_le hzv.2⟩).2
          have := mul_le_mul_of_nonneg_left h1 (exp_pos (S * y)).le
          linarith)
      rw [he, sub_self, mul_zero] at key
      have h0 : u (zu v) - m ≤ 0 := by
        by_contra hpos
        push Not at hpos
        have := mul_pos (exp_pos (S * zu v)) hpos
        linarith
      have h1 := hm (zu v) (hsub ⟨le_rfl, hgt.le⟩)
      exact ih (by omega) (zu v) ⟨hv0, le_rfl⟩ (by linarith)

/-- The same from the bottom, when it can only rise against `z`. -/
theorem travel_bottom (hz : Edges zu k H) {u u' : ℝ → ℝ} {m S : ℝ} (hc : ContinuousOn u (Icc 0 H)) (hm : ∀ z ∈ Icc 0 H, m ≤ u z)
    (hd : ∀ v < k, ∀ z ∈ Ioo (zu v) (zu (v + 1)), HasDerivAt u (u' z) z ∧ u' z ≤ S * (u z - m)) : ∀ z ∈ Icc 0 H, u z = m → u H = m := by
  intro z hzH he
  have hE : Edges (fun j => H - zu (k - j)) k H := by
    refine ⟨hz.pos, ?_, ?_, fun i j hij hj => ?_⟩
    · simp [hz.last]
    · simp [hz.zero]
    · have := hz.mono (k - j) (k - i) (by omega) (by omega)
      linarith
  have := travel_top hE (u := fun y => u (H - y)) (u' := fun y => -u' (H - y)) (m := m) (S := S)
    (hc.comp (continuousOn_const.sub continuousOn_id) fun y hy => by
      simp only [mem_Icc] at hy ⊢
      exact ⟨by linarith [hy.2], by linarith [hy.1]⟩)
    (fun y hy => hm _ ⟨by linarith [hy.2], by linarith [hy.1]⟩)
    (fun v hv y hy => by
      have e1 : k - v - 1 + 1 = k - v := by omega
      have hy' : H - y ∈ Ioo (zu (k - v - 1)) (zu (k - v - 1 + 1)) := by
        rw [e1]
        have e2 : k - (v + 1) = k - v - 1 := by omega
        simp only [e2, mem_Ioo] at hy
        exact ⟨by linarith [hy.2], by linarith [hy.1]⟩
      obtain ⟨h1, h2⟩ := hd (k - v - 1) (by omega) (H - y) hy'
      refine ⟨?_, by linarith⟩
      have h3 : HasDerivAt (fun y : ℝ => H - y) (-1) y := by simpa using (hasDerivAt_id y).const_sub H
      have := HasDerivAt.comp y h1 h3
      refine this.congr_deriv ?_
      ring) k le_rfl (H - z) ⟨by linarith [hzH.2], by
        rw [Nat.sub_self, hz.zero]
        linarith [hzH.1]⟩ (by rw [sub_sub_cancel]; exact he)
  simpa using this

variable {ι : Type*} [Fintype ι] [DecidableEq ι]

/-- Specification: heat gained by the pipe `i` from the wall and the other pipes, for the conductances `G`. -/
def exchange (G : ι → ι → ℝ) (T : ι → ℝ) (Tw : ℝ) (i : ι) : ℝ := G i i * (Tw - T i) + ∑ j ∈ Finset.univ.erase i, G i j * (T j - T i)

theorem exchange_lower {G : ι → ι → ℝ} (hG : ∀ i j, 0 ≤ G i j) {T : ι → ℝ} {Tw m : ℝ} (hT : ∀ j, m ≤ T j) (hw : m ≤ Tw) (i : ι) :
    -((∑ j, G i j) * (T i - m)) ≤ exchange G T Tw i := by
  unfold exchange
  rw [← Finset.add_sum_erase Finset.univ (G i) (Finset.mem_univ i), add_mul, neg_add, Finset.sum_mul, ← Finset.sum_neg_distrib]
  refine add_le_add ?_ (Finset.sum_le_sum fun j _ => ?_)
  · nlinarith [hG i i]
  · nlinarith [hG i j, hT j]

/-- Fluid flows through pipes of non-negative conductances.  Every pipe receives its fluid at the bound or above, or from a pipe before it.  Then no fluid
temperature is below the bound when no wall temperature is. -/
theorem lower_bound [Nonempty ι] (hz : Edges zu k H) {G : ι → ι → ℝ} (hG : ∀ i j, 0 ≤ G i j) {mcp : ι → ℝ} {T : ℝ → ι → ℝ} {Tb : ℕ → ℝ}
    (ode : ∀ v < k, ∀ z ∈ Ioo (zu v) (zu (v + 1)), ∀ i, HasDerivAt (fun z => T z i) (exchange G (T z) (Tb v) i / mcp i) z) (cont : ∀ i, ContinuousOn (fun z => T z i) (Icc 0 H))
    {M : ℝ} (hTb : ∀ v < k, M ≤ Tb v) (rank : ι → ℕ)
    (start : ∀ i, (0 < mcp i ∧ (M ≤ T 0 i ∨ ∃ j, rank j < rank i ∧ T 0 i = T 0 j)) ∨ (mcp i < 0 ∧ (M ≤ T H i ∨ ∃ j, rank j < rank i ∧ T H i = T H j))) :
    ∀ z ∈ Icc 0 H, ∀ i, M ≤ T z i := by
  have hH : 0 ≤ H := by rw [← hz.zero, ← hz.last]; exact hz.mono 0 k (Nat.zero_le _) le_rfl
  choose z0 hz0 hmin using fun i => isCompact_Icc.exists_isMinOn (nonempty_Icc.mpr hH) (cont i)
  obtain ⟨i0, -, hi0⟩ := Finset.exists_min_image Finset.univ (fun i => T (z0 i) i) Finset.univ_nonempty
  obtain ⟨m, hm⟩ : ∃ m, m = T (z0 i0) i0 := ⟨_, rfl⟩
  have hlow : ∀ z ∈ Icc 0 H, ∀ i, m ≤ T z i := fun z hzH i => by
    rw [hm]
    exact (hi0 i (Finset.mem_univ i)).trans (hmin i hzH)
  by_contra hno
  push Not at hno
  obtain ⟨z1, hz1, i1, h1⟩ := hno
  have hmM : m < M := (hlow z1 hz1 i1).trans_lt h1
  have hsub : ∀ v < k, ∀ z ∈ Ioo (zu v) (zu (v + 1)), z ∈ Icc 0 H := fun v hv z hzv => hz.sub hv (Ioo_subset_Icc_self hzv)
  have hne : ∀ r i, rank i = r → ∀ z ∈ Icc 0 H, T z i ≠ m := by
    intro r
    induction r using Nat.strong_induction_on with
    | _ r ih =>
      intro i hr z hzH he
      have hex : ∀ v < k, ∀ z ∈ Ioo (zu v) (zu (v + 1)), -((∑ j, G i j) * (T z i - m)) ≤ exchange G (T z) (Tb v) i := fun v hv z hzv =>
        exchange_lower hG (hlow z (hsub v hv z hzv)) (hmM.le.trans (hTb v hv)) i
      have hseg : ∃ u' : ℝ → ℝ, ∀ v < k, ∀ z ∈ Ioo (zu v) (zu (v + 1)), u' z = deriv (fun z => T z i) z := ⟨_, fun _ _ _ _ => rfl⟩
      obtain ⟨u', hu'⟩ := hseg
      have hd : ∀ v < k, ∀ z ∈ Ioo (zu v) (zu (v + 1)), HasDerivAt (fun z => T z i) (u' z) z ∧ u' z = exchange G (T z) (Tb v) i / mcp i := fun v hv z hzv => by
        have h := ode v hv z hzv i
        rw [hu' v hv z hzv, h.deriv]
        exact ⟨h, rfl⟩
      rcases start i with ⟨hp, hs⟩ | ⟨hp, hs⟩
      · have ht := travel_top hz (S := (∑ j, G i j) / mcp i) (cont i) (fun z hzH => hlow z hzH i) (fun v hv z hzv => ⟨(hd v hv z hzv).1, by
          rw [(hd v hv z hzv).2]
          have := div_le_div_of_nonneg_right (hex v hv z hzv) hp.le
          refine le_trans (le_of_eq ?_) this
          ring⟩) k le_rfl z (by rw [hz.last]; exact hzH) he
        rcases hs with hs | ⟨j, hj, hs⟩
        · linarith
        · exact ih (rank j) (by omega) j rfl 0 ⟨le_rfl, hH⟩ (hs.symm.trans ht)
      · have ht := travel_bottom hz (S := (∑ j, G i j) / -mcp i) (cont i) (fun z hzH => hlow z hzH i) (fun v hv z hzv => ⟨(hd v hv z hzv).1, by
          rw [(hd v hv z hzv).2]
          have := div_le_div_of_nonneg_right (hex v hv z hzv) (neg_pos.mpr hp).le
          have e : -((∑ j, G i j) * (T z i - m)) / -mcp i = -((∑ j, G i j) / -mcp i * (T z i - m)) := by ring
          rw [e, div_neg (exchange G (T z) (Tb v) i)] at this
          linarith⟩) z hzH he
        rcases hs with hs | ⟨j, hj, hs⟩
        · linarith
        · exact ih (rank j) (by omega) j rfl H ⟨hH, le_rfl⟩ (hs.symm.trans ht)
  exact hne (rank i0) i0 rfl (z0 i0) (hz0 i0) hm.symm

theorem exchange_neg (G : ι → ι → ℝ) (T : ι → ℝ) (Tw : ℝ) (i : ι) : exchange G (fun j => -T j) (-Tw) i = -exchange G T Tw i := by
  unfold exchange
  rw [neg_add, ← Finset.sum_neg_distrib]
  congr 1
  · ring
  · exact Finset.sum_congr rfl fun j _ => by ring

/-- The same above. -/
theorem upper_bound [Nonempty ι] (hz : Edges zu k H) {G : ι → ι → ℝ} (hG : ∀ i j, 0 ≤ G i j) {mcp : ι → ℝ} {T : ℝ → ι → ℝ} {Tb : ℕ → ℝ}
    (ode : ∀ v < k, ∀ z ∈ Ioo (zu v) (zu (v + 1)), ∀ i, HasDerivAt (fun z => T z i) (exchange G (T z) (Tb v) i / mcp i) z) (cont : ∀ i, ContinuousOn (fun z => T z i) (Icc 0 H))
    {M : ℝ} (hTb : ∀ v < k, Tb v ≤ M) (rank : ι → ℕ)
    (start : ∀ i, (0 < mcp i ∧ (T 0 i ≤ M ∨ ∃ j, rank j < rank i ∧ T 0 i = T 0 j)) ∨ (mcp i < 0 ∧ (T H i ≤ M ∨ ∃ j, rank j < rank i ∧ T H i = T H j))) :
    ∀ z ∈ Icc 0 H, ∀ i, T z i ≤ M := by
  intro z hzH i
  have := lower_bound hz hG (mcp := mcp) (T := fun z i => -T z i) (Tb := fun v => -Tb v) (M := -M)
    (fun v hv z hzv i => by
      refine (ode v hv z hzv i).neg.congr_deriv ?_
      rw [exchange_neg, neg_div])
    (fun i => (cont i).neg) (fun v hv => by linarith [hTb v hv]) rank (fun i => ?_) z hzH i
  · linarith
  · rcases start i with ⟨hp, h | ⟨j, hj, h⟩⟩ | ⟨hp, h | ⟨j, hj, h⟩⟩
    · exact Or.inl ⟨hp, Or.inl (by linarith)⟩
    · exact Or.inl ⟨hp, Or.inr ⟨j, hj, by rw [h]⟩⟩
    · exact Or.inr ⟨hp, Or.inl (by linarith)⟩
    · exact Or.inr ⟨hp, Or.inr ⟨j, hj, by rw [h]⟩⟩

/-! ### Single U-tubes and coaxial boreholes -/

/-- The fluid in both legs of a U-tube. -/
theorem UPar.solution_between {p : UPar} (h1 : 0 ≤ p.b1) (h2 : 0 ≤ p.b2) (h12 : 0 ≤ p.b12) {zu : ℕ → ℝ} {n : ℕ} (hz : Edges zu n p.H) {Tin : ℝ} {Tb : ℕ → ℝ} {d u : ℝ → ℝ}
    (h : Solution p zu n Tin Tb d u) {lo hi : ℝ} (hin : lo ≤ Tin ∧ Tin ≤ hi) (hw : ∀ v < n, lo ≤ Tb v ∧ Tb v ≤ hi) :
    ∀ z ∈ Icc 0 p.H, (lo ≤ d z ∧ d z ≤ hi) ∧ (lo ≤ u z ∧ u z ≤ hi) := by
  obtain ⟨G, hGd⟩ : ∃ G : Bool → Bool → ℝ, G = fun i j => if i = j then (if i then p.b2 else p.b1) else p.b12 := ⟨_, rfl⟩
  obtain ⟨T, hT⟩ : ∃ T : ℝ → Bool → ℝ, T = fun z i => if i then u z else d z := ⟨_, rfl⟩
  have hG : ∀ i j, 0 ≤ G i j := fun i j => by rw [hGd]; cases i <;> cases j <;> simp <;> assumption
  have e1 : ∀ z Tw, exchange G (T z) Tw false = p.b1 * (Tw - d z) + p.b12 * (u z - d z) := fun z Tw => by
    unfold exchange
    rw [show (Finset.univ : Finset Bool).erase false = {true} by decide, Finset.sum_singleton, hGd, hT]
    simp
  have e2 : ∀ z Tw, exchange G (T z) Tw true = p.b2 * (Tw - u z) + p.b12 * (d z - u z) := fun z Tw => by
    unfold exchange
    rw [show (Finset.univ : Finset Bool).erase true = {false} by decide, Finset.sum_singleton, hGd, hT]
    simp
  have ode : ∀ v < n, ∀ z ∈ Ioo (zu v) (zu (v + 1)), ∀ i : Bool, HasDerivAt (fun z => T z i) (exchange G (T z) (Tb v) i / (if i then -1 else 1)) z := fun v hv z hzv i => by
    cases i
    · rw [e1, hT]
      refine (h.down v hv z hzv).congr_deriv ?_
      simp only [Bool.false_eq_true, if_false]
      ring
    · rw [e2, hT]
      refine (h.up v hv z hzv).congr_deriv ?_
      simp only [if_true]
      ring
  have cont : ∀ i, ContinuousOn (fun z => T z i) (Icc 0 p.H) := fun i => by
    rw [hT]
    cases i
    · exact h.contDown
    · exact h.contUp
  have hf : ∀ z, T z false = d z := fun z => by rw [hT]; simp
  have ht : ∀ z, T z true = u z := fun z => by rw [hT]; simp
  have lb := lower_bound hz hG ode cont (fun v hv => (hw v hv).1) (fun i => if i then 1 else 0) fun i => by
    cases i
    · exact Or.inl ⟨by simp, Or.inl (by rw [hf, h.inlet]; exact hin.1)⟩
    · exact Or.inr ⟨by simp, Or.inr ⟨false, by simp, by rw [hf, ht, h.bottom]⟩⟩
  have ub := upper_bound hz hG ode cont (fun v hv => (hw v hv).2) (fun i => if i then 1 else 0) fun i => by
    cases i
    · exact Or.inl ⟨by simp, Or.inl (by rw [hf, h.inlet]; exact hin.2)⟩
    · exact Or.inr ⟨by simp, Or.inr ⟨false, by simp, by rw [hf, ht, h.bottom]⟩⟩
  intro z hzH
  have a1 := lb z hzH false
  have a2 := ub z hzH false
  have a3 := lb z hzH true
  have a4 := ub z hzH true
  rw [hf] at a1 a2
  rw [ht] at a3 a4
  exact ⟨⟨a1, a2⟩, a3, a4⟩

namespace UTube

variable {t : UTube} (hv : t.Valid) {m cp : ℝ} (hm : m ≠ 0) (hc : 0 < cp) {n : ℕ} (hz : Edges zu n t.H)

include hv hm hc hz in
/-- **C107** (single U-tube and coaxial boreholes).  The fluid temperatures at every depth, in both pipes, lie between the extremes of the inlet and wall temperatures. -/
theorem temperature_between (h12 : 0 ≤ t.G 0 1) (Tin : ℝ) (Tb : ℕ → ℝ) {lo hi : ℝ} (hin : lo ≤ Tin ∧ Tin ≤ hi) (hw : ∀ v < n, lo ≤ Tb v ∧ Tb v ≤ hi) :
    ∀ z ∈ Icc 0 t.H, ∀ i, lo ≤ t.temperature zu n m cp Tin Tb z i ∧ t.temperature zu n m cp Tin Tb z i ≤ hi := by
  have hz' : Edges zu n (t.par m cp).H := hz
  have hp := par_passive hv hm hc
  obtain ⟨sol, -⟩ := UPar.profile_solves hp hz' Tin Tb
  have hM : 0 ≤ |m| * cp := by positivity
  have hG : 0 ≤ t.G (t.iInlet m) (t.iOutlet m) := by
    unfold iInlet iOutlet
    cases t.isReversed m
    · exact h12
    · show 0 ≤ t.G 1 0
      rw [← hv.symm]; exact h12
  have := UPar.solution_between (p := t.par m cp) (div_nonneg (hv.nonneg _) hM) (div_nonneg (hv.nonneg _) hM) (div_nonneg hG hM) hz' sol hin hw
  intro z hzH i
  rw [temperature_eq]
  split_ifs
  · exact (this z hzH).1
  · exact (this z hzH).2

include hv hm hc hz in
/-- **C107** (coefficients).  The outlet temperature is a weighted average of the inlet and wall temperatures. -/
theorem netPipe_weighted (h12 : 0 ≤ t.G 0 1) : (t.netPipe zu n).Weighted m cp := by
  have hz' : Edges zu n (t.par m cp).H := hz
  have hp := par_passive hv hm hc
  obtain ⟨-, h2, -, h4⟩ := UPar.outlet_convex hp hz'
  have hG : 0 ≤ t.G (t.iInlet m) (t.iOutlet m) := by
    unfold iInlet iOutlet
    cases t.isReversed m
    · exact h12
    · show 0 ≤ t.G 1 0
      rw [← hv.symm]; exact h12
  have hM : 0 ≤ |m| * cp := by positivity
  exact ⟨(h4 (div_nonneg hG hM)).le, fun s => h2 s s.2, (netPipe_equilibrium hv hm hc hz).1⟩

/-- Non-vacuity: a coaxial borehole whose inner pipe does not touch the wall, with reversed flow. -/
example : ∀ z ∈ Icc (0 : ℝ) 100, ∀ i, 5 ≤ (coaxial 0 (1 / 2) (1 / 5) 100 true).temperature (fun k => 50 * (k : ℝ)) 2 (-1) 4 20 (fun v => 5 + v) z i ∧
    (coaxial 0 (1 / 2) (1 / 5) 100 true).temperature (fun k => 50 * (k : ℝ)) 2 (-1) 4 20 (fun v => 5 + v) z i ≤ 20 :=
  temperature_between (t := coaxial 0 (1 / 2) (1 / 5) 100 true)
    (coaxial_valid 0 true (by norm_num) (by norm_num) (by norm_num)) (by norm_num) (by norm_num)
    ⟨by norm_num, by norm_num, by norm_num [coaxial], fun i j hij _ => by
      have : (i : ℝ) ≤ j := by exact_mod_cast hij
      linarith⟩ (by simp [coaxial]) 20 _ (by norm_num) fun v hv => by
      have h1 : (v : ℝ) ≤ 1 := by exact_mod_cast (by omega : v ≤ 1)
      have h2 : (0 : ℝ) ≤ v := Nat.cast_nonneg v
      constructor <;> linarith

end UTube

/-! ### Several U-tubes -/

namespace Multi

open Matrix

variable {n : ℕ}

theorem exchange_flux (Rd : Matrix (P n) (P n) ℝ) (T : P n → ℝ) (Tw : ℝ) (i : P n) : exchange (fun i j => 1 / Rd i j) T Tw i = pipeFlux Rd T Tw i := by
  unfold exchange pipeFlux
  congr 1
  · ring
  · exact Finset.sum_congr rfl fun j _ => by ring

/-- Wall temperatures as a function of the number of the segment. -/
def padWall (Tb : Fin k → ℝ) (v : ℕ) : ℝ := if h : v < k then Tb ⟨v, h⟩ else 0

theorem padWall_val (Tb : Fin k → ℝ) {v : ℕ} (hv : v < k) : padWall Tb v = Tb ⟨v, hv⟩ := by
  unfold padWall; rw [dif_pos hv]

variable {ni no : ℕ} {c : Conn n ni no} {Rd : Matrix (P n) (P n) ℝ} {Tin : Fin ni → ℝ} {Tb : Fin k → ℝ} {T : ℝ → P n → ℝ} {Tout : Fin no → ℝ}

/-- The pipe that comes before the pipe `i` of the U-tube that it belongs to is the downward one; the ranks of the downward pipes are those of the flow path at the head. -/
theorem sol_between (hR : Circuit Rd) (hn : 0 < n) (hz : Edges zu k H) (h : Sol c Rd zu H Tin Tb T Tout) {rev : Fin n → Bool} {w : Fin n → ℝ} (ha : Aligned c rev w)
    (hw : ∀ i, 0 < w i) {lo hi : ℝ} (hTb : ∀ v, lo ≤ Tb v ∧ Tb v ≤ hi) (order : Fin n → ℕ)
    (head : ∀ i, (lo ≤ T 0 (downPipe rev i) ∧ T 0 (downPipe rev i) ≤ hi) ∨ ∃ j, order j < order i ∧ T 0 (downPipe rev i) = T 0 (upPipe rev j)) :
    ∀ z ∈ Icc 0 H, ∀ i, lo ≤ T z i ∧ T z i ≤ hi := by
  have hG : ∀ i j, 0 ≤ 1 / Rd i j := fun i j => (one_div_pos.mpr (hR.pos i j)).le
  have : Nonempty (P n) := ⟨.inl ⟨0, hn⟩⟩
  have ode : ∀ v < k, ∀ z ∈ Ioo (zu v) (zu (v + 1)), ∀ i, HasDerivAt (fun z => T z i) (exchange (fun i j => 1 / Rd i j) (T z) (padWall Tb v) i / c.mcp i) z := fun v hv z hzv i => by
    rw [exchange_flux, padWall_val Tb hv]
    exact h.ode ⟨v, hv⟩ z hzv i
  -- the rank of a pipe
  obtain ⟨idx, hidx⟩ : ∃ idx : P n → Fin n, idx = Sum.elim id id := ⟨_, rfl⟩
  obtain ⟨rank, hrank⟩ : ∃ rank : P n → ℕ, rank = fun p => 2 * order (idx p) + if p = downPipe rev (idx p) then 0 else 1 := ⟨_, rfl⟩
  have hne : ∀ i, upPipe rev i ≠ downPipe rev i := fun i => by unfold upPipe downPipe; cases rev i <;> simp
  have hid : ∀ i, idx (downPipe rev i) = i ∧ idx (upPipe rev i) = i := fun i => by
    rw [hidx]; unfold upPipe downPipe; cases rev i <;> simp
  have hrd : ∀ i, rank (downPipe rev i) = 2 * order i := fun i => by rw [hrank]; simp [(hid i).1]
  have hru : ∀ i, rank (upPipe rev i) = 2 * order i + 1 := fun i => by rw [hrank]; simp [(hid i).2, hne i]
  have hcase : ∀ p : P n, ∃ i, p = downPipe rev i ∨ p = upPipe rev i := fun p => by
    rcases p with i | i <;> refine ⟨i, ?_⟩ <;> unfold upPipe downPipe <;> cases rev i <;> simp
  have hbot : ∀ i, T H (upPipe rev i) = T H (downPipe rev i) := fun i => by
    have := h.bottom i
    unfold upPipe downPipe
    cases rev i <;> simp [this]
  have lb := lower_bound hz hG ode h.cont (M := lo) (fun v hv => by rw [padWall_val Tb hv]; exact (hTb _).1) rank fun p => by
    obtain ⟨i, rfl | rfl⟩ := hcase p
    · refine Or.inl ⟨by rw [ha.down]; exact hw i, (head i).imp And.left ?_⟩
      rintro ⟨j, hj, he⟩
      exact ⟨_, by rw [hrd, hru]; omega, he⟩
    · exact Or.inr ⟨by rw [ha.up]; linarith [hw i], Or.inr ⟨downPipe rev i, by rw [hrd, hru]; omega, hbot i⟩⟩
  have ub := upper_bound hz hG ode h.cont (M := hi) (fun v hv => by rw [padWall_val Tb hv]; exact (hTb _).2) rank fun p => by
    obtain ⟨i, rfl | rfl⟩ := hcase p
    · refine Or.inl ⟨by rw [ha.down]; exact hw i, (head i).imp And.right ?_⟩
      rintro ⟨j, hj, he⟩
      exact ⟨_, by rw [hrd, hru]; omega, he⟩
    · exact Or.inr ⟨by rw [ha.up]; linarith [hw i], Or.inr ⟨downPipe rev i, by rw [hrd, hru]; omega, hbot i⟩⟩
  exact fun z hzH i => ⟨lb z hzH i, ub z hzH i⟩

end Multi

namespace Multi

open Matrix

variable {n : ℕ} {Rd : Matrix (P n) (P n) ℝ} (hR : Circuit Rd) (hH : 0 < H) (hz : Edges zu k H)

include hR hH hz in
/-- **C107** (several U-tubes).  For any number of U-tubes in parallel or in series the fluid temperatures at every depth, in every pipe, and the outlet temperature lie
between the extremes of the inlet and wall temperatures. -/
theorem multiple_between {c : Config} {reversible : Bool} {m cp : ℝ} (hf : Flowing n reversible m cp) {e : Eig n} (he : e.Of (odeA Rd (multiple c n reversible m cp).mcp))
    (Tin : ℝ) (Tb : Fin k → ℝ) {lo hi : ℝ} (hin : lo ≤ Tin ∧ Tin ≤ hi) (hw : ∀ v, lo ≤ Tb v ∧ Tb v ≤ hi) : ∃ (T : ℝ → P n → ℝ) (Tout : ℝ),
    (∀ z, (mkBore k (multiple c n reversible m cp) Rd e zu H).temperature (fun _ => Tin) Tb z = some (T z)) ∧
    (mkBore k (multiple c n reversible m cp) Rd e zu H).outletT (fun _ => Tin) Tb = some (fun _ => Tout) ∧
    (∀ z ∈ Icc 0 H, ∀ i, lo ≤ T z i ∧ T z i ≤ hi) ∧ lo ≤ Tout ∧ Tout ≤ hi := by
  obtain ⟨T, Tout, h1, h2, hs, -⟩ := multiple_profile hR hf he hH hz Tin Tb
  have hsol := (sol_iff c hf.hn reversible hf.hm hf.hcp hf.dir Rd zu H Tin Tb T Tout).mpr hs
  have ha := multiple_aligned (n := n) c hf.hm hf.dir cp
  have hflow : 0 < pipeFlow c n m * cp := mul_pos (pipeFlow_pos c hf.hn hf.hm) hf.hcp
  have hhead := hs.head
  have hb : ∀ z ∈ Icc 0 H, ∀ i, lo ≤ T z i ∧ T z i ≤ hi := by
    cases c with
    | parallel =>
      obtain ⟨a1, -⟩ : (∀ i, T 0 (downPipe (fun _ => reversed reversible m) i) = Tin) ∧ n * Tout = ∑ i, T 0 (upPipe (fun _ => reversed reversible m) i) := by
        cases hr : reversed reversible m <;> simp only [hr] at hhead <;> exact hhead
      exact sol_between hR hf.hn hz hsol ha (fun _ => hflow) hw (fun _ => 0) fun i => Or.inl (by rw [a1 i]; exact hin)
    | series =>
      cases hr : reversed reversible m
      · simp only [hr] at hhead ha
        obtain ⟨a1, a2, -⟩ := hhead
        dsimp only at a1 a2
        refine sol_between hR hf.hn hz hsol ha (fun _ => hflow) hw (fun i => i) fun i => ?_
        rcases Nat.eq_zero_or_pos (i : ℕ) with h0 | h0
        · exact Or.inl (by rw [a1 i h0]; exact hin)
        · exact Or.inr ⟨⟨i - 1, by omega⟩, by simp; omega, a2 ⟨i - 1, by omega⟩ i (by simp; omega)⟩
      · simp only [hr] at hhead ha
        obtain ⟨a1, a2, -⟩ := hhead
        dsimp only at a1 a2
        refine sol_between hR hf.hn hz hsol ha (fun _ => hflow) hw (fun i => n - i) fun i => ?_
        have hi := i.isLt
        rcases Nat.lt_or_ge ((i : ℕ) + 1) n with h0 | h0
        · exact Or.inr ⟨⟨i + 1, h0⟩, by simp; omega, a2 i ⟨i + 1, h0⟩ rfl⟩
        · exact Or.inl (by rw [a1 i (by omega)]; exact hin)
  refine ⟨T, Tout, h1, h2, hb, ?_⟩
  have hu := fun i => hb 0 ⟨le_rfl, hH.le⟩ (upPipe (fun _ => reversed reversible m) i)
  have hnp : (0 : ℝ) < n := by exact_mod_cast hf.hn
  cases c with
  | parallel =>
    obtain ⟨-, a2⟩ : (∀ i, T 0 (downPipe (fun _ => reversed reversible m) i) = Tin) ∧ n * Tout = ∑ i, T 0 (upPipe (fun _ => reversed reversible m) i) := by
      cases hr : reversed reversible m <;> simp only [hr] at hhead <;> exact hhead
    have b1 : n * lo ≤ n * Tout := by
      rw [a2]
      have := Finset.sum_le_sum fun i (_ : i ∈ Finset.univ) => (hu i).1
      simpa using this
    have b2 : n * Tout ≤ n * hi := by
      rw [a2]
      have := Finset.sum_le_sum fun i (_ : i ∈ Finset.univ) => (hu i).2
      simpa using this
    exact ⟨le_of_mul_le_mul_left b1 hnp, le_of_mul_le_mul_left b2 hnp⟩
  | series =>
    have hn := hf.hn
    cases hr : reversed reversible m
    · simp only [hr] at hhead hu
      obtain ⟨-, -, a3⟩ := hhead
      dsimp only at a3
      rw [a3 ⟨n - 1, by omega⟩ (by simp; omega)]
      exact hu _
    · simp only [hr] at hhead hu
      obtain ⟨-, -, a3⟩ := hhead
      dsimp only at a3
      rw [a3 ⟨0, hn⟩ rfl]
      exact hu _

include hR hH hz in
/-- **C107** (independent U-tubes).  The same for U-tubes with their own inlets and flow rates. -/
theorem independent_between (hn : 0 < n) {reversible : Bool} {m cp : Fin n → ℝ} (hm : ∀ i, m i ≠ 0) (hcp : ∀ i, 0 < cp i) (h : ∀ i, 0 < m i ∨ reversible = true) {e : Eig n}
    (he : e.Of (odeA Rd (independent n reversible m cp).mcp)) (Tin : Fin n → ℝ) (Tb : Fin k → ℝ) {lo hi : ℝ} (hin : ∀ i, lo ≤ Tin i ∧ Tin i ≤ hi) (hw : ∀ v, lo ≤ Tb v ∧ Tb v ≤ hi) :
    ∃ (T : ℝ → P n → ℝ) (Tout : Fin n → ℝ), (∀ z, (mkBore k (independent n reversible m cp) Rd e zu H).temperature Tin Tb z = some (T z)) ∧
    (mkBore k (independent n reversible m cp) Rd e zu H).outletT Tin Tb = some Tout ∧
    (∀ z ∈ Icc 0 H, ∀ i, lo ≤ T z i ∧ T z i ≤ hi) ∧ ∀ i, lo ≤ Tout i ∧ Tout i ≤ hi := by
  obtain ⟨q, T, Tout, Qf, -, h1, h2, -, -, -, -, hs, -⟩ := independent_profile hR hH hz hm hcp h he Tin Tb
  have hsol := (isol_iff hm h Tin Tb T Tout).mpr hs
  have hb := sol_between hR hn hz hsol (independent_aligned (cp := cp) hm h) (fun i => mul_pos (abs_pos.mpr (hm i)) (hcp i)) hw (fun _ => 0)
    fun i => Or.inl (by rw [hs.inlet i]; exact hin i)
  refine ⟨T, Tout, h1, h2, hb, fun i => ?_⟩
  rw [← hs.outlet i]
  exact hb 0 ⟨le_rfl, hH.le⟩ _

include hR hH hz in
/-- **C107** (coefficients).  The outlet temperature is a weighted average of the inlet and wall temperatures. -/
theorem multiple_weighted {c : Config} {reversible : Bool} {m cp : ℝ} (hf : Flowing n reversible m cp) {e : Eig n} (he : e.Of (odeA Rd (multiple c n reversible m cp).mcp))
    {p : Net.Pipe k} (hp : Represents (mkBore k (multiple c n reversible m cp) Rd e zu H) zu p m cp) :
    p.Weighted m cp := by
  refine ⟨?_, fun s => ?_, (multiple_thermal hR hf he hH hz hp).uniform⟩
  · obtain ⟨T, Tout, -, h2, -, h3, -⟩ := multiple_between hR hH hz hf he 1 (fun _ => 0) (lo := 0) (hi := 1) (by norm_num) (by norm_num)
    rw [represents_outlet hp, Option.some.injEq] at h2
    have := congrFun h2 0
    simp only [mul_one, mul_zero, Finset.sum_const_zero, add_zero] at this
    rw [this]; exact h3
  · obtain ⟨T, Tout, -, h2, -, h3, -⟩ := multiple_between hR hH hz hf he 0 (fun s' => if s' = s then 1 else 0) (lo := 0) (hi := 1) (by norm_num)
      (fun v => by split_ifs <;> norm_num)
    rw [represents_outlet hp, Option.some.injEq] at h2
    have := congrFun h2 0
    simp only [mul_zero, mul_ite, mul_one, Finset.sum_ite_eq', Finset.mem_univ, if_true, zero_add] at this
    rw [this]; exact h3

/-- Non-vacuity: three U-tubes in series with reversed flow. -/
example : ∃ e : Eig 3, ∃ (T : ℝ → P 3 → ℝ) (Tout : ℝ), (∀ z, (mkBore 2 (multiple .series 3 true (-2) 4) (sampleRd 3) e (fun j => 50 * (j : ℝ)) 100).temperature (fun _ => 20) ![5, 8] z = some (T z)) ∧
    (mkBore 2 (multiple .series 3 true (-2) 4) (sampleRd 3) e (fun j => 50 * (j : ℝ)) 100).outletT (fun _ => 20) ![5, 8] = some (fun _ => Tout) ∧
    (∀ z ∈ Icc 0 100, ∀ i, 5 ≤ T z i ∧ T z i ≤ 20) ∧ 5 ≤ Tout ∧ Tout ≤ 20 := by
  obtain ⟨e, he⟩ := eig_exists (sample_circuit 3) (multiple .series 3 true (-2) 4).mcp
  exact ⟨e, multiple_between (sample_circuit 3) (by norm_num) sample_edges ⟨by norm_num, by norm_num, by norm_num, Or.inr rfl⟩ he 20 ![5, 8] (by norm_num)
    fun v => by fin_cases v <;> norm_num⟩

end Multi

/-! ### A network -/

/-- Non-vacuity: two boreholes in series, a single U-tube and two U-tubes in parallel, with reversed flow; the fluid enters at 20 and the walls are between 5 and 8. -/
example : ∃ (t : Net.Topology) (f : Net.Formatted) (p : (i : Fin 2) → Net.Pipe ((fun _ => 2 : Fin 2 → ℕ) i)) (ki ko : Net.Coef (Fin 2) fun _ => 2), Net.construct 2 (some [-1, 0]) = .ok t ∧
    Net.format t [-3] [4] = .ok f ∧ Net.netInlet t p f = some ki ∧ Net.netOutlet t p f = some ko ∧ ∀ (Tb : Net.SegIdx (fun _ : Fin 2 => 2) → ℝ), (∀ s, 5 ≤ Tb s ∧ Tb s ≤ 8) →
    (∀ i, (5 ≤ ki.eval 20 Tb i ∧ ki.eval 20 Tb i ≤ 20) ∧ (5 ≤ ko.eval 20 Tb i ∧ ko.eval 20 Tb i ≤ 20)) ∧
    5 ≤ (Net.netMixed (Net.mixing (Net.flowOutlets t f) f.mIn) ko).eval 20 Tb () ∧ (Net.netMixed (Net.mixing (Net.flowOutlets t f) f.mIn) ko).eval 20 Tb () ≤ 20 := by
  obtain ⟨t, htd⟩ : ∃ t : Net.Topology, t = ⟨2, [-1, 0], 1, 1, [0], [1], [0, 0]⟩ := ⟨_, rfl⟩
  have ht : Net.construct 2 (some [-1, 0]) = .ok t := by rw [htd]; rfl
  obtain ⟨f, hfd⟩ : ∃ f : Net.Formatted, f = ⟨[-3], true, 4⟩ := ⟨_, rfl⟩
  have hf : Net.format t [-3] [4] = .ok f := by
    rw [htd, hfd]; norm_num [Net.format, Net.formatFlow, Net.formatCp]
  have hm : ∀ i : Fin 2, Net.mBore t f i = -3 := fun i => by
    rw [htd, hfd]
    fin_cases i <;> rfl
  have hcp : f.cp = 4 := by rw [hfd]
  have hflow : Multi.Flowing 2 true (-3) 4 := ⟨by norm_num, by norm_num, by norm_num, Or.inr rfl⟩
  obtain ⟨e, he⟩ := Multi.eig_exists (Multi.sample_circuit 2) (Multi.multiple .parallel 2 true (-3) 4).mcp
  obtain ⟨p1, hp1⟩ := Multi.represents_exists (k := 2) (zu := fun j => 50 * (j : ℝ)) (H := 100) (Multi.sample_circuit 2) hflow he (by norm_num)
  have hz : Edges (fun j => 50 * (j : ℝ)) 2 100 := Multi.sample_edges
  obtain ⟨p, hpd⟩ : ∃ p : (i : Fin 2) → Net.Pipe ((fun _ => 2 : Fin 2 → ℕ) i), p = fun i => if i = 0 then (UTube.sample true).netPipe (fun j => 50 * (j : ℝ)) 2 else p1 := ⟨_, rfl⟩
  have hp : ∀ i, (p i).Weighted (Net.mBore t f i) f.cp := fun i => by
    rw [hm, hcp, hpd]
    fin_cases i
    · exact UTube.netPipe_weighted (UTube.sample_valid true) (by norm_num) (by norm_num) hz (by norm_num [UTube.sample, singleUTube])
    · exact Multi.multiple_weighted (Multi.sample_circuit 2) (by norm_num) hz hflow he hp1
  obtain ⟨ki, ko, h1, h2, -⟩ := Net.network_temperatures ht p f
  refine ⟨t, f, p, ki, ko, ht, hf, h1, h2, fun Tb hTb => ⟨fun i => ?_, ?_⟩⟩
  · exact Net.network_between ht p f hp h1 h2 (by norm_num) (fun s => ⟨(hTb s).1, (hTb s).2.trans (by norm_num)⟩) i
  · exact Net.network_outlet_between ht p hf (by rw [hfd]; norm_num) hp h2 (by norm_num) fun s => ⟨(hTb s).1, (hTb s).2.trans (by norm_num)⟩

end Verif.Pipe
