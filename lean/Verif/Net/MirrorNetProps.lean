import Verif.Net.ThermalProps

/-!
# Property C141 (networks): reciprocity of the two directions of flow
-/

noncomputable section

namespace Verif.Net

open Matrix

variable {n : ℕ} {ns : Fin n → ℕ}

/-- Specification of a borehole whose directions of flow are reciprocal: two experiments, one with the flow `m` and one with the flow `-m`, each with its own inlet and wall
temperatures.  The heat of each weighted by the wall temperatures of the other differ by the exchange at the inlet and the outlet. -/
def Pipe.Mirrored {k : ℕ} (p : Pipe k) (m cp : ℝ) : Prop :=
  ∀ (Tin Sin : ℝ) (Tb Sb : Fin k → ℝ),
    ∑ s, Sb s * (p.heatA m cp s * Tin + ∑ s', p.heatB m cp s s' * Tb s') - ∑ s, Tb s * (p.heatA (-m) cp s * Sin + ∑ s', p.heatB (-m) cp s s' * Sb s')
      = |m| * cp * ((p.outA m cp * Tin + ∑ s, p.outB m cp s * Tb s) * Sin - Tin * (p.outA (-m) cp * Sin + ∑ s, p.outB (-m) cp s * Sb s))

/-- The formatted inputs of the network with the flow in the other direction. -/
def Formatted.flip (f : Formatted) : Formatted := ⟨f.mIn.map fun a => -a, !f.rev, f.cp⟩

variable {conn : Option (List ℤ)} {t : Topology}

theorem mBore_flip (t : Topology) (f : Formatted) (i : ℕ) : mBore t f.flip i = -mBore t f i := by
  unfold mBore Formatted.flip
  dsimp only
  rw [List.getD_eq_getElem?_getD, List.getD_eq_getElem?_getD (l := f.mIn), List.getElem?_map]
  cases f.mIn[t.iCircuit.getD i 0]? <;> simp

theorem fedBy_flip (t : Topology) (f : Formatted) (i j : ℕ) : FedBy t f.flip j i ↔ FedBy t f i j := by
  unfold FedBy Formatted.flip
  cases f.rev <;> simp

theorem flow_flip (t : Topology) (f : Formatted) : flowInlets t f.flip = flowOutlets t f ∧ flowOutlets t f.flip = flowInlets t f := by
  unfold flowInlets flowOutlets Formatted.flip
  cases f.rev <;> simp

/-- Reversing the signs of the flow rates given to a network gives the formatted inputs of the other direction. -/
theorem format_flip {m cp : List ℝ} {f : Formatted} (hf : format t m cp = .ok f) (hne : ∃ a ∈ m, a ≠ 0) : format t (m.map fun a => -a) cp = .ok f.flip := by
  obtain ⟨b, hb, hb0⟩ := hne
  have hfl : ∀ l, formatFlow t.nInlets m = .ok l → formatFlow t.nInlets (m.map fun a => -a) = .ok (l.map fun a => -a) := fun l hl => by
    unfold formatFlow at hl
    split at hl
    · rw [Except.ok.injEq] at hl
      subst hl
      simp [formatFlow, neg_div]
    · rename_i hne
      split_ifs at hl with hlen
      rw [Except.ok.injEq] at hl
      subst hl
      unfold formatFlow
      split
      · rename_i a ha
        obtain ⟨c, hc⟩ : ∃ c, m = [c] := List.length_eq_one_iff.mp (by simpa using congrArg List.length ha)
        exact absurd hc (hne c)
      · rw [if_pos (by simpa using hlen)]
  unfold format at hf ⊢
  cases hm : formatFlow t.nInlets m with
  | error e => rw [hm] at hf; simp at hf
  | ok l =>
    rw [hm] at hf
    rw [hfl l hm]
    simp only at hf ⊢
    have hmap : ∀ q : ℝ → Prop, (∀ a ∈ m.map fun a => -a, q a) ↔ ∀ a ∈ m, q (-a) := fun q => List.forall_mem_map
    rw [if_congr (hmap fun a => 0 ≤ a) rfl rfl, if_congr (hmap fun a => a ≤ 0) rfl rfl]
    simp only [Left.nonneg_neg_iff, Left.neg_nonpos_iff]
    by_cases hpos : ∀ a ∈ m, 0 ≤ a
    · have hno : ¬ ∀ a ∈ m, a ≤ 0 := fun h => hb0 (le_antisymm (h b hb) (hpos b hb))
      rw [if_pos hpos] at hf
      rw [if_neg hno, if_pos hpos]
      cases hc : formatCp t.nInlets cp with
      | error e => rw [hc] at hf; simp at hf
      | ok c =>
        rw [hc] at hf
        simp only [Except.ok.injEq] at hf ⊢
        rw [← hf]; rfl
    · rw [if_neg hpos] at hf
      split_ifs at hf with hneg
      rw [if_pos hneg]
      cases hc : formatCp t.nInlets cp with
      | error e => rw [hc] at hf; simp at hf
      | ok c =>
        rw [hc] at hf
        simp only [Except.ok.injEq] at hf ⊢
        rw [← hf]; rfl

/-- **C141** (networks).  Two experiments with opposite flow through the same network: the heat extracted in each, weighted by the wall temperatures of the other, differ by the
exchange at the ends of the circuits. -/
theorem network_mirrored (h : construct n conn = .ok t) (p : (i : Fin n) → Pipe (ns i)) (f : Formatted) (hp : ∀ i, (p i).Mirrored (mBore t f i) f.cp)
    {ki ko ki' ko' : Coef (Fin n) ns} (hki : netInlet t p f = some ki) (hko : netOutlet t p f = some ko) (hki' : netInlet t p f.flip = some ki') (hko' : netOutlet t p f.flip = some ko')
    (Tin Sin : ℝ) (Tb Sb : SegIdx ns → ℝ) :
    ∑ s, Sb s * (boreHeat t p f ki).eval Tin Tb s - ∑ s, Tb s * (boreHeat t p f.flip ki').eval Sin Sb s
      = f.cp * (Sin * ∑ i : Fin n, (if (i : ℕ) ∈ flowOutlets t f then |mBore t f i| * ko.eval Tin Tb i else 0)
        - Tin * ∑ i : Fin n, (if (i : ℕ) ∈ flowOutlets t f.flip then |mBore t f i| * ko'.eval Sin Sb i else 0)) := by
  obtain ⟨a, b, h1, h2, hs⟩ := network_temperatures h p f
  rw [hki, Option.some.injEq] at h1
  rw [hko, Option.some.injEq] at h2
  subst h1 h2
  obtain ⟨a, b, h1, h2, hs'⟩ := network_temperatures h p f.flip
  rw [hki', Option.some.injEq] at h1
  rw [hko', Option.some.injEq] at h2
  subst h1 h2
  obtain ⟨hsol, -⟩ := hs Tin Tb
  obtain ⟨hsol', -⟩ := hs' Sin Sb
  obtain ⟨x, hx⟩ : ∃ x, x = ki.eval Tin Tb := ⟨_, rfl⟩
  obtain ⟨y, hy⟩ : ∃ y, y = ko.eval Tin Tb := ⟨_, rfl⟩
  obtain ⟨x', hx'⟩ : ∃ x, x = ki'.eval Sin Sb := ⟨_, rfl⟩
  obtain ⟨y', hy'⟩ : ∃ y, y = ko'.eval Sin Sb := ⟨_, rfl⟩
  rw [← hx, ← hy] at hsol
  rw [← hx', ← hy'] at hsol'
  -- the exchange of each borehole
  have hb : ∀ i : Fin n, ∑ s, Sb ⟨i, s⟩ * (boreHeat t p f ki).eval Tin Tb ⟨i, s⟩ - ∑ s, Tb ⟨i, s⟩ * (boreHeat t p f.flip ki').eval Sin Sb ⟨i, s⟩
      = f.cp * (|mBore t f i| * (y i * x' i - x i * y' i)) := fun i => by
    have e := hp i (x i) (x' i) (fun s => Tb ⟨i, s⟩) fun s => Sb ⟨i, s⟩
    have e1 := hsol.model i
    have e2 := hsol'.model i
    unfold boreA boreB at e1 e2
    rw [mBore_flip] at e2
    have hc : f.flip.cp = f.cp := rfl
    rw [hc] at e2
    rw [← e1, ← e2] at e
    rw [Finset.sum_congr rfl fun s _ => congrArg (fun a => Sb ⟨i, s⟩ * a) ((network_borehole_heat (t := t) p f ki Tin Tb).2 ⟨i, s⟩),
      Finset.sum_congr rfl fun s _ => congrArg (fun a => Tb ⟨i, s⟩ * a) ((network_borehole_heat (t := t) p f.flip ki' Sin Sb).2 ⟨i, s⟩)]
    dsimp only
    rw [mBore_flip, hc, ← hx, ← hx', e]
    ring
  rw [Fintype.sum_sigma, Fintype.sum_sigma, ← Finset.sum_sub_distrib, Finset.sum_congr rfl fun i _ => hb i, ← Finset.mul_sum]
  congr 1
  -- along the circuits
  classical
  have htel := telescoping h f 0 (fun i => if ∀ j : Fin n, ¬ FedBy t f i j then 0 else x i * y' i) (fun i => y i * x' i)
    (fun i j hij => by
      rw [if_neg (by push Not; exact ⟨j, hij⟩), hsol.fed i j hij, hsol'.fed j i ((fedBy_flip t f i j).mpr hij)])
    fun i hi => by rw [if_pos hi]
  rw [zero_mul, sub_zero] at htel
  have hsplit : ∀ i : Fin n, |mBore t f i| * (y i * x' i - x i * y' i) = |mBore t f i| * (y i * x' i - if ∀ j : Fin n, ¬ FedBy t f i j then 0 else x i * y' i)
      - Tin * (if (i : ℕ) ∈ flowOutlets t f.flip then |mBore t f i| * y' i else 0) := fun i => by
    rw [(flow_flip t f).2]
    by_cases hi : ∀ j : Fin n, ¬ FedBy t f i j
    · rw [if_pos hi, if_pos ((flowInlets_iff h f i).mpr hi), hsol.inlet i hi]; ring
    · rw [if_neg hi, if_neg fun hm => hi ((flowInlets_iff h f i).mp hm)]; ring
  rw [Finset.sum_congr rfl fun i _ => hsplit i, Finset.sum_sub_distrib, htel, ← Finset.mul_sum, ← hy, ← hy']
  congr 1
  rw [Finset.mul_sum]
  refine Finset.sum_congr rfl fun i _ => ?_
  split_ifs with hi
  · have := hsol'.inlet i ((flowInlets_iff h f.flip i).mp (by rw [(flow_flip t f).1]; exact hi))
    rw [this]; ring
  · ring

/-- The total heat extracted from a network with the walls at the temperature zero. -/
theorem heat_inlet (h : construct n conn = .ok t) (p : (i : Fin n) → Pipe (ns i)) (f : Formatted) (hlen : f.mIn.length = t.nInlets) {ki ko : Coef (Fin n) ns}
    (hki : netInlet t p f = some ki) (hko : netOutlet t p f = some ko) :
    (netHeat (fluidHeat t p f ki)).aIn () = f.cp * (∑ i : Fin n, (if (i : ℕ) ∈ flowOutlets t f then |mBore t f i| * ko.eval 1 (fun _ => 0) i else 0) - (f.mIn.map abs).sum) := by
  have e := heat_total h p f hlen ki ko hki hko 1 fun _ => 0
  rw [one_mul] at e
  rw [← e]
  have h0 : ((netHeat (fluidHeat t p f ki)).aB *ᵥ fun _ => 0) () = 0 := by simp [Matrix.mulVec, dotProduct]
  unfold Coef.eval
  rw [h0, mul_one, add_zero]

theorem flip_abs (f : Formatted) : (f.flip.mIn.map abs).sum = (f.mIn.map abs).sum := by
  unfold Formatted.flip
  rw [List.map_map]
  congr 1
  exact List.map_congr_left fun a _ => abs_neg a

theorem flip_length (f : Formatted) : f.flip.mIn.length = f.mIn.length := by simp [Formatted.flip]

/-- **C141** (coefficients).  Reversing the flow through a network transposes the coefficients between the walls and the heat extracted from them, exchanges the coefficients of the
inlet temperature in the heat of a wall with those of this wall in the heat of the network, up to the sign, and keeps the coefficient of the inlet temperature in the
heat of the network. -/
theorem network_transposed (h : construct n conn = .ok t) (p : (i : Fin n) → Pipe (ns i)) (f : Formatted) (hp : ∀ i, (p i).Mirrored (mBore t f i) f.cp)
    (hlen : f.mIn.length = t.nInlets) (hcp : f.cp ≠ 0)
    {ki ki' : Coef (Fin n) ns} (hki : netInlet t p f = some ki) (hki' : netInlet t p f.flip = some ki') :
    (∀ s s', (boreHeat t p f ki).aB s s' = (boreHeat t p f.flip ki').aB s' s) ∧
    (∀ s, (boreHeat t p f ki).aIn s = -(netHeat (fluidHeat t p f.flip ki')).aB () s) ∧
    (netHeat (fluidHeat t p f ki)).aIn () = (netHeat (fluidHeat t p f.flip ki')).aIn () := by
  classical
  obtain ⟨-, ko, -, hko, -⟩ := network_temperatures h p f
  obtain ⟨-, ko', -, hko', -⟩ := network_temperatures h p f.flip
  have key := network_mirrored h p f hp hki hko hki' hko'
  have hcp' : f.flip.cp = f.cp := rfl
  refine ⟨fun s s' => ?_, fun s => ?_, ?_⟩
  · have e := key 0 0 (Pi.single s' 1) (Pi.single s 1)
    simp only [Coef.eval, mul_zero, zero_add, zero_mul, sub_self, Matrix.mulVec_single_one, Matrix.col_apply, Pi.single_apply, ite_mul, one_mul, Finset.sum_ite_eq', Finset.mem_univ,
      if_true] at e
    linarith
  · have e := key 1 0 (fun _ => 0) (Pi.single s 1)
    have e2 := heat_total h p f.flip (by rw [flip_length, hlen]) ki' ko' hki' hko' 0 (Pi.single s 1)
    rw [zero_mul, sub_zero, hcp'] at e2
    have h0 : ∀ x : SegIdx ns, (boreHeat t p f ki).eval 1 (fun _ => 0) x = (boreHeat t p f ki).aIn x := fun x => by
      unfold Coef.eval
      simp [Matrix.mulVec, dotProduct]
    have h2 : (netHeat (fluidHeat t p f.flip ki')).eval 0 (Pi.single s 1) () = (netHeat (fluidHeat t p f.flip ki')).aB () s := by
      unfold Coef.eval
      simp
    rw [h2] at e2
    simp only [h0, zero_mul, Finset.sum_const_zero, sub_zero, one_mul, zero_sub, Pi.single_apply, ite_mul, Finset.sum_ite_eq', Finset.mem_univ, if_true] at e
    rw [e, e2]
    simp only [mBore_flip, abs_neg, mul_neg]
  · have e := key 1 1 (fun _ => 0) fun _ => 0
    rw [heat_inlet h p f hlen hki hko, heat_inlet h p f.flip (by rw [flip_length, hlen]) hki' hko', flip_abs, hcp']
    simp only [zero_mul, Finset.sum_const_zero, sub_zero, one_mul] at e
    have e' := (mul_eq_zero.mp e.symm).resolve_left hcp
    simp only [mBore_flip, abs_neg]
    linarith

/-- **C141** (resistance).  The effective thermal resistance of a network does not depend on the direction of the flow. -/
theorem resistance_flip (h : construct n conn = .ok t) (p : (i : Fin n) → Pipe (ns i)) (f : Formatted) (hp : ∀ i, (p i).Mirrored (mBore t f i) f.cp)
    (hlen : f.mIn.length = t.nInlets) (hcp : f.cp ≠ 0) (hflow : (f.mIn.map abs).sum ≠ 0) (ha : Aligned t f) (ha' : Aligned t f.flip)
    {ki ko ki' ko' : Coef (Fin n) ns} (hki : netInlet t p f = some ki) (hko : netOutlet t p f = some ko) (hki' : netInlet t p f.flip = some ki')
    (hko' : netOutlet t p f.flip = some ko') (Htot : ℝ) :
    netResistance Htot (netMixed (mixing (flowOutlets t f) f.mIn) ko) (netHeat (fluidHeat t p f ki))
      = netResistance Htot (netMixed (mixing (flowOutlets t f.flip) f.flip.mIn) ko') (netHeat (fluidHeat t p f.flip ki')) := by
  obtain ⟨-, -, e⟩ := network_transposed h p f hp hlen hcp hki hki'
  have hev : ∀ k : Coef Unit ns, k.eval 1 (fun _ => 0) () = k.aIn () := fun k => by
    unfold Coef.eval
    simp [Matrix.mulVec, dotProduct]
  have e1 := energy_balance_partial h p f hlen hflow ha ki ko hki hko 1 fun _ => 0
  have e2 := energy_balance_partial h p f.flip (by rw [flip_length, hlen]) (by rw [flip_abs]; exact hflow) ha' ki' ko' hki' hko' 1 fun _ => 0
  have hcp' : f.flip.cp = f.cp := rfl
  rw [hev, hev] at e1 e2
  rw [flip_abs, hcp', ← e, e1] at e2
  have e3 := mul_left_cancel₀ (mul_ne_zero hflow hcp) e2
  unfold netResistance
  rw [e, show (netMixed (mixing (flowOutlets t f) f.mIn) ko).aIn () = (netMixed (mixing (flowOutlets t f.flip) f.flip.mIn) ko').aIn () by linarith]

end Verif.Net
