import Verif.Net.BetweenNetProps

/-!
# Property C108 (networks): the heat extracted by a network is that of a uniform wall at a weighted average of the wall temperatures
-/

noncomputable section

namespace Verif.Net

variable {n : ℕ} {ns ns' : Fin n → ℕ} {conn : Option (List ℤ)} {t : Topology}

/-- Total heat extraction rate of the segments of a network. -/
def totalHeat (t : Topology) (p : (i : Fin n) → Pipe (ns i)) (f : Formatted) (ki : Coef (Fin n) ns) (Tin : ℝ) (Tb : SegIdx ns → ℝ) : ℝ :=
  ∑ s, (boreHeat t p f ki).eval Tin Tb s

/-- Conductance between the fluid at the inlet of the network and uniform walls: the heat extraction rate at an inlet temperature of one and walls at zero. -/
def conductance (t : Topology) (p : (i : Fin n) → Pipe (ns i)) (f : Formatted) (ki : Coef (Fin n) ns) : ℝ := -totalHeat t p f ki 1 0

theorem totalHeat_boreholes (p : (i : Fin n) → Pipe (ns i)) (f : Formatted) (hp : ∀ i, (p i).Thermal (mBore t f i) f.cp) (ki : Coef (Fin n) ns) (Tin : ℝ) (Tb : SegIdx ns → ℝ) :
    totalHeat t p f ki Tin Tb = ∑ i : Fin n, |mBore t f i| * f.cp * (boreA t p f i * ki.eval Tin Tb i + ∑ s, boreB t p f i s * Tb ⟨i, s⟩ - ki.eval Tin Tb i) := by
  unfold totalHeat
  rw [Fintype.sum_sigma]
  refine Finset.sum_congr rfl fun i _ => ?_
  rw [Finset.sum_congr rfl fun s _ => (network_borehole_heat (t := t) p f ki Tin Tb).2 ⟨i, s⟩]
  exact (hp i).balance (ki.eval Tin Tb i) fun s => Tb ⟨i, s⟩

theorem totalHeat_fluid (p : (i : Fin n) → Pipe (ns i)) (f : Formatted) (hp : ∀ i, (p i).Thermal (mBore t f i) f.cp) (ki : Coef (Fin n) ns) (Tin : ℝ) (Tb : SegIdx ns → ℝ) :
    totalHeat t p f ki Tin Tb = (netHeat (fluidHeat t p f ki)).eval Tin Tb () := by
  rw [totalHeat_boreholes p f hp, netHeat_eval, Finset.sum_congr rfl fun i _ => (network_borehole_heat (t := t) p f ki Tin Tb).1 i]

theorem totalHeat_linear (p : (i : Fin n) → Pipe (ns i)) (f : Formatted) (ki : Coef (Fin n) ns) (Tin : ℝ) (Tb : SegIdx ns → ℝ) :
    totalHeat t p f ki Tin Tb = (∑ s, (boreHeat t p f ki).aIn s) * Tin + ∑ s', (∑ s, (boreHeat t p f ki).aB s s') * Tb s' := by
  unfold totalHeat Coef.eval
  simp only [Matrix.mulVec, dotProduct]
  rw [Finset.sum_add_distrib, ← Finset.sum_mul, Finset.sum_comm]
  simp only [Finset.sum_mul]

variable (h : construct n conn = .ok t) (p : (i : Fin n) → Pipe (ns i)) (f : Formatted) (hp : ∀ i, (p i).Thermal (mBore t f i) f.cp)
include h hp

theorem totalHeat_outlets {ki ko : Coef (Fin n) ns} (hki : netInlet t p f = some ki) (hko : netOutlet t p f = some ko) (hlen : f.mIn.length = t.nInlets) (Tin : ℝ)
    (Tb : SegIdx ns → ℝ) :
    totalHeat t p f ki Tin Tb = f.cp * (∑ i : Fin n, (if (i : ℕ) ∈ flowOutlets t f then |mBore t f i| * ko.eval Tin Tb i else 0) - Tin * (f.mIn.map abs).sum) := by
  rw [totalHeat_fluid p f hp, heat_total h p f hlen ki ko hki hko]

variable (hw : ∀ i, (p i).Weighted (mBore t f i) f.cp)
include hw

/-- The conductance is positive. -/
theorem conductance_pos (hcp : 0 < f.cp) (hflow : ∀ i : Fin n, mBore t f i ≠ 0) {ki : Coef (Fin n) ns} (hki : netInlet t p f = some ki) : 0 < conductance t p f ki := by
  obtain ⟨ki', ko, h1, hko, hs⟩ := network_temperatures h p f
  rw [hki, Option.some.injEq] at h1
  subst h1
  obtain ⟨hsol, -⟩ := hs 1 0
  unfold conductance
  rw [totalHeat_boreholes p f hp, ← Finset.sum_neg_distrib]
  have hb := fun i => (network_between h p f hw hki hko (Tin := 1) (Tb := 0) (lo := 0) (hi := 1) (by norm_num) (by simp) i).1.1
  have hterm : ∀ i : Fin n, -(|mBore t f i| * f.cp * (boreA t p f i * ki.eval 1 0 i + ∑ s, boreB t p f i s * (0 : SegIdx ns → ℝ) ⟨i, s⟩ - ki.eval 1 0 i))
      = |mBore t f i| * f.cp * ((1 - boreA t p f i) * ki.eval 1 0 i) := fun i => by
    simp only [Pi.zero_apply, mul_zero, Finset.sum_const_zero]; ring
  rw [Finset.sum_congr rfl fun i _ => hterm i]
  have hA : ∀ i, 0 < 1 - boreA t p f i := fun i => by have := (hp i).heated; unfold boreA; linarith
  have hm : ∀ i : Fin n, 0 < |mBore t f i| * f.cp := fun i => mul_pos (abs_pos.mpr (hflow i)) hcp
  -- a borehole that receives the fluid of the network
  obtain ⟨rank, hrank⟩ := fedBy_rank h f
  obtain ⟨-, -, hv, -⟩ := construct_ok h
  obtain ⟨i, -, hi⟩ := Finset.exists_min_image (Finset.univ : Finset (Fin n)) rank ⟨⟨0, hv.pos⟩, Finset.mem_univ _⟩
  have hx : ki.eval 1 0 i = 1 := hsol.inlet i fun j hj => absurd (hi j (Finset.mem_univ j)) (not_le.mpr (hrank i j hj))
  refine Finset.sum_pos' (fun j _ => mul_nonneg (hm j).le (mul_nonneg (hA j).le (hb j))) ⟨i, Finset.mem_univ i, ?_⟩
  rw [hx, mul_one]
  exact mul_pos (hm i) (hA i)

/-- **C108** (networks).  There are weights of an average of the wall temperatures, such that for all inlet and wall temperatures the network extracts from the walls the
conductance times the difference between the average of the walls and the inlet: the heat that it extracts from uniform walls at this average. -/
theorem network_mean (hlen : f.mIn.length = t.nInlets) (hcp : 0 < f.cp) (hflow : ∀ i : Fin n, mBore t f i ≠ 0) {ki : Coef (Fin n) ns} (hki : netInlet t p f = some ki) :
    ∃ w : SegIdx ns → ℝ, (∀ s, 0 ≤ w s) ∧ ∑ s, w s = 1 ∧ ∀ Tin Tb, totalHeat t p f ki Tin Tb = conductance t p f ki * (∑ s, w s * Tb s - Tin) := by
  have hC := conductance_pos h p f hp hw hcp hflow hki
  obtain ⟨ki', ko, h1, hko, hs⟩ := network_temperatures h p f
  rw [hki, Option.some.injEq] at h1
  subst h1
  obtain ⟨B, hB⟩ : ∃ B : SegIdx ns → ℝ, B = fun s' => ∑ s, (boreHeat t p f ki).aB s s' := ⟨_, rfl⟩
  obtain ⟨C, hCd⟩ : ∃ C, C = conductance t p f ki := ⟨_, rfl⟩
  have hin : ∑ s, (boreHeat t p f ki).aIn s = -C := by
    have := totalHeat_linear (t := t) p f ki 1 0
    simp only [mul_one, Pi.zero_apply, mul_zero, Finset.sum_const_zero, add_zero] at this
    rw [hCd, conductance, this, neg_neg]
  have hlin : ∀ Tin Tb, totalHeat t p f ki Tin Tb = -C * Tin + ∑ s, B s * Tb s := fun Tin Tb => by rw [totalHeat_linear, hin, hB]
  have hsum : ∑ s, B s = C := by
    have h3 := (network_passive h p f hp hcp hflow hki).1
    have h4 := Finset.sum_congr (rfl : (Finset.univ : Finset (SegIdx ns)) = Finset.univ) fun s _ => h3 s
    have h5 := Finset.sum_comm (s := Finset.univ) (t := Finset.univ) (f := fun s s' => (boreHeat t p f ki).aB s s')
    rw [Finset.sum_add_distrib, hin, h5, Finset.sum_const_zero] at h4
    rw [hB]; linarith
  have hpos : ∀ s, 0 ≤ B s := fun s => by
    classical
    have e1 := hlin 0 (Pi.single s 1)
    simp only [mul_zero, zero_add] at e1
    rw [Finset.sum_eq_single s (fun b _ hb => by rw [Pi.single_eq_of_ne hb, mul_zero]) (by simp), Pi.single_eq_same, mul_one] at e1
    rw [← e1, totalHeat_outlets h p f hp hki hko hlen, zero_mul, sub_zero]
    refine mul_nonneg hcp.le (Finset.sum_nonneg fun i _ => ?_)
    split_ifs
    · refine mul_nonneg (abs_nonneg _) (network_between h p f hw hki hko (lo := 0) (hi := 1) (by norm_num) (fun s' => ?_) i).2.1
      by_cases hss : s' = s
      · subst hss; simp
      · rw [Pi.single_eq_of_ne hss]; norm_num
    · exact le_rfl
  rw [← hCd] at hC
  refine ⟨fun s => B s / C, fun s => div_nonneg (hpos s) hC.le, by rw [← Finset.sum_div, hsum, div_self hC.ne'], fun Tin Tb => ?_⟩
  rw [hlin, ← hCd, mul_sub, Finset.mul_sum]
  have : ∀ s, C * (B s / C * Tb s) = B s * Tb s := fun s => by field_simp
  rw [Finset.sum_congr rfl fun s _ => this s]
  ring

omit hw in
/-- The conductance depends on the boreholes only through the response of their outlets to their inlets, not on the segments. -/
theorem conductance_segments (p' : (i : Fin n) → Pipe (ns' i)) (hp' : ∀ i, (p' i).Thermal (mBore t f i) f.cp) (he : ∀ i, (p i).outA (mBore t f i) f.cp = (p' i).outA (mBore t f i) f.cp)
    {ki : Coef (Fin n) ns} {ki' : Coef (Fin n) ns'} (hki : netInlet t p f = some ki) (hki' : netInlet t p' f = some ki') : conductance t p f ki = conductance t p' f ki' := by
  obtain ⟨k1, ko, h1, hko, hs⟩ := network_temperatures h p f
  rw [hki, Option.some.injEq] at h1
  subst h1
  obtain ⟨k1', ko', h1', hko', hs'⟩ := network_temperatures h p' f
  rw [hki', Option.some.injEq] at h1'
  subst h1'
  have hA : boreA t p f = boreA t p' f := funext he
  obtain ⟨hsol, -⟩ := hs 1 0
  have hsol' : Solves t f (boreA t p' f) (boreB t p' f) 1 0 (ki.eval 1 0) (ko.eval 1 0) := ⟨fun i => by
      rw [← hA]
      have := hsol.model i
      simp only [Pi.zero_apply, mul_zero, Finset.sum_const_zero] at this ⊢
      exact this, hsol.fed, hsol.inlet⟩
  obtain ⟨hx, -⟩ := (hs' 1 0).2 _ _ hsol'
  unfold conductance
  rw [totalHeat_boreholes p f hp, totalHeat_boreholes p' f hp', ← hx, hA]
  simp only [Pi.zero_apply, mul_zero, Finset.sum_const_zero]

omit hw in
/-- With the flow rates of the outlets in the order of the circuits, the response of the mixed outlet to the inlet is given by the conductance. -/
theorem mixed_response (hlen : f.mIn.length = t.nInlets) (hflow : (f.mIn.map abs).sum ≠ 0) (ha : Aligned t f) {ki ko : Coef (Fin n) ns} (hki : netInlet t p f = some ki)
    (hko : netOutlet t p f = some ko) :
    (f.mIn.map abs).sum * f.cp * (1 - (netMixed (mixing (flowOutlets t f) f.mIn) ko).aIn ()) = conductance t p f ki := by
  have := energy_balance_partial h p f hlen hflow ha ki ko hki hko 1 0
  unfold conductance
  rw [totalHeat_fluid p f hp, this]
  have e : (netMixed (mixing (flowOutlets t f) f.mIn) ko).eval 1 0 () = (netMixed (mixing (flowOutlets t f) f.mIn) ko).aIn () := by simp [Coef.eval]
  rw [e]; ring

omit h hw in
theorem heat_response {ki : Coef (Fin n) ns} : (netHeat (fluidHeat t p f ki)).aIn () = -conductance t p f ki := by
  unfold conductance
  rw [totalHeat_fluid p f hp, neg_neg]
  simp [Coef.eval]

end Verif.Net
