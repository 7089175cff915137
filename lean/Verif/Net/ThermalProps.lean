import Verif.Net.FlowProps

/-!
# Property C106 (networks): a network never moves heat from cold to hot
-/

noncomputable section

namespace Verif.Net

open Matrix

variable {n : ℕ} {ns : Fin n → ℕ}

/-- Specification: a borehole model with `k` segments as seen by a network, at the flow rate `m` and the heat capacity `cp`.  Nothing happens at equal temperatures, the heat
extracted from the walls is gained by the fluid, the heat extracted from the walls, weighted by their temperatures, is at least the gain of `m cp T² / 2` by the fluid,
and the fluid exchanges some heat. -/
structure Pipe.Thermal {k : ℕ} (p : Pipe k) (m cp : ℝ) : Prop where
  uniform : p.outA m cp + ∑ s, p.outB m cp s = 1
  rest : ∀ s, p.heatA m cp s + ∑ s', p.heatB m cp s s' = 0
  balance : ∀ (Tin : ℝ) (Tb : Fin k → ℝ), ∑ s, (p.heatA m cp s * Tin + ∑ s', p.heatB m cp s s' * Tb s') = |m| * cp * (p.outA m cp * Tin + ∑ s, p.outB m cp s * Tb s - Tin)
  downhill : ∀ (Tin : ℝ) (Tb : Fin k → ℝ), |m| * cp / 2 * ((p.outA m cp * Tin + ∑ s, p.outB m cp s * Tb s) ^ 2 - Tin ^ 2)
    ≤ ∑ s, Tb s * (p.heatA m cp s * Tin + ∑ s', p.heatB m cp s s' * Tb s')
  heated : p.outA m cp < 1

variable {conn : Option (List ℤ)} {t : Topology}

/-- **C106** (networks).  The heat extracted from all the walls, weighted by their temperatures, is at least the gain of `m cp T² / 2` between the inlet and the outlets of the
network; with the inlet at the temperature zero it is not negative. -/
theorem network_downhill (h : construct n conn = .ok t) (p : (i : Fin n) → Pipe (ns i)) (f : Formatted) (hp : ∀ i, (p i).Thermal (mBore t f i) f.cp)
    {ki ko : Coef (Fin n) ns} (hki : netInlet t p f = some ki) (hko : netOutlet t p f = some ko) (Tin : ℝ) (Tb : SegIdx ns → ℝ) :
    f.cp / 2 * (∑ i : Fin n, (if (i : ℕ) ∈ flowOutlets t f then |mBore t f i| * ko.eval Tin Tb i ^ 2 else 0)
      - Tin ^ 2 * ∑ i : Fin n, (if (i : ℕ) ∈ flowInlets t f then |mBore t f i| else 0)) ≤ ∑ s, Tb s * (boreHeat t p f ki).eval Tin Tb s := by
  obtain ⟨ki', ko', h1, h2, hs⟩ := network_temperatures h p f
  rw [hki, Option.some.injEq] at h1
  rw [hko, Option.some.injEq] at h2
  subst h1 h2
  obtain ⟨hsol, -⟩ := hs Tin Tb
  have htel := telescoping h f (Tin ^ 2) (fun i => ki.eval Tin Tb i ^ 2) (fun i => ko.eval Tin Tb i ^ 2) (fun i j hij => by rw [hsol.fed i j hij])
    fun i hi => by rw [hsol.inlet i hi]
  rw [← htel, Fintype.sum_sigma, Finset.mul_sum]
  refine Finset.sum_le_sum fun i _ => ?_
  rw [Finset.sum_congr rfl fun s _ => congrArg (fun a => Tb ⟨i, s⟩ * a) ((network_borehole_heat (t := t) p f ki Tin Tb).2 ⟨i, s⟩)]
  have := (hp i).downhill (ki.eval Tin Tb i) fun s => Tb ⟨i, s⟩
  have hy : ko.eval Tin Tb i = (p i).outA (mBore t f i) f.cp * ki.eval Tin Tb i + ∑ s, (p i).outB (mBore t f i) f.cp s * Tb ⟨i, s⟩ := hsol.model i
  rw [← hy] at this
  dsimp only
  linarith

/-- **C106** (networks, coefficients).  The heat extraction coefficients of all the segments sum to zero, those of the inlet temperature do not all vanish, and the
form of the wall coefficients is not negative. -/
theorem network_passive (h : construct n conn = .ok t) (p : (i : Fin n) → Pipe (ns i)) (f : Formatted) (hp : ∀ i, (p i).Thermal (mBore t f i) f.cp) (hcp : 0 < f.cp)
    (hflow : ∀ i : Fin n, mBore t f i ≠ 0) {ki : Coef (Fin n) ns} (hki : netInlet t p f = some ki) :
    (∀ s, (boreHeat t p f ki).aIn s + ∑ s', (boreHeat t p f ki).aB s s' = 0) ∧ (∀ θ : SegIdx ns → ℝ, 0 ≤ ∑ s, θ s * ∑ s', (boreHeat t p f ki).aB s s' * θ s') ∧
    ∃ s, (boreHeat t p f ki).aIn s ≠ 0 := by
  obtain ⟨ki', ko, h1, hko, hs⟩ := network_temperatures h p f
  rw [hki, Option.some.injEq] at h1
  subst h1
  have hev : ∀ Tin Tb s, (boreHeat t p f ki).eval Tin Tb s = (boreHeat t p f ki).aIn s * Tin + ∑ s', (boreHeat t p f ki).aB s s' * Tb s' := fun _ _ _ => rfl
  refine ⟨fun s => ?_, fun θ => ?_, ?_⟩
  · -- all temperatures equal to one solve the network
    have hone : Solves t f (boreA t p f) (boreB t p f) 1 (fun _ => 1) (fun _ => 1) fun _ => 1 :=
      ⟨fun i => by simp only [mul_one]; exact (hp i).uniform.symm, fun _ _ _ => rfl, fun _ _ => rfl⟩
    obtain ⟨hx, -⟩ := (hs 1 fun _ => 1).2 _ _ hone
    have h2 := (network_borehole_heat (t := t) p f ki 1 fun _ => 1).2 s
    rw [← hx, hev] at h2
    have h3 := (hp s.1).rest s.2
    simpa [h3] using h2
  · have h2 := network_downhill h p f hp hki hko 0 θ
    simp only [hev, mul_zero, zero_add] at h2
    refine le_trans ?_ h2
    have h3 : 0 ≤ ∑ i : Fin n, (if (i : ℕ) ∈ flowOutlets t f then |mBore t f i| * ko.eval 0 θ i ^ 2 else 0) :=
      Finset.sum_nonneg fun i _ => by split_ifs <;> positivity
    have h4 : (0 : ℝ) ^ 2 * ∑ i : Fin n, (if (i : ℕ) ∈ flowInlets t f then |mBore t f i| else 0) = 0 := by ring
    rw [h4, sub_zero]
    positivity
  · by_contra hno
    push Not at hno
    obtain ⟨hsol, -⟩ := hs 1 fun _ => 0
    -- a borehole that receives the fluid of the network
    obtain ⟨rank, hrank⟩ := fedBy_rank h f
    obtain ⟨-, -, hv, -⟩ := construct_ok h
    obtain ⟨i, -, hi⟩ := Finset.exists_min_image (Finset.univ : Finset (Fin n)) rank ⟨⟨0, hv.pos⟩, Finset.mem_univ _⟩
    have hx : ki.eval 1 (fun _ => 0) i = 1 := hsol.inlet i fun j hj => absurd (hi j (Finset.mem_univ j)) (not_le.mpr (hrank i j hj))
    have hb := (hp i).balance 1 fun _ => 0
    have hz : ∀ s, (p i).heatA (mBore t f i) f.cp s * 1 + ∑ s', (p i).heatB (mBore t f i) f.cp s s' * 0 = 0 := fun s => by
      have h2 := (network_borehole_heat (t := t) p f ki 1 fun _ => 0).2 ⟨i, s⟩
      dsimp only at h2
      rw [hx, hev, hno] at h2
      rw [← h2]; simp
    rw [Finset.sum_congr rfl fun s _ => hz s] at hb
    simp only [Finset.sum_const_zero, mul_zero, mul_one, add_zero] at hb
    have hm : 0 < |mBore t f i| * f.cp := mul_pos (abs_pos.mpr (hflow i)) hcp
    have := (hp i).heated
    nlinarith

end Verif.Net
