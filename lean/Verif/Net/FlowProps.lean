import Verif.Net.FlowLemmas

/-!
# Properties C34, C35, C36, C54 and C58: network temperatures and energy balance
-/

noncomputable section

namespace Verif.Net

open Matrix

variable {n : ℕ} {ns : Fin n → ℕ} {conn : Option (List ℤ)} {t : Topology}

/-! ### C34 -/

/-- **C34.**  For every accepted topology, flow direction and borehole models, the coefficient
methods for borehole inlet and outlet temperatures succeed, and for every network inlet
temperature and wall temperatures the temperatures they give are the unique solution of the
network: network inlet boreholes receive the network inlet temperature, every other borehole
receives the outlet temperature of its upstream borehole, every borehole obeys its model. -/
theorem network_temperatures (h : construct n conn = .ok t) (p : (i : Fin n) → Pipe (ns i)) (f : Formatted) :
    ∃ ki ko, netInlet t p f = some ki ∧ netOutlet t p f = some ko ∧ ∀ Tin Tb,
      Solves t f (boreA t p f) (boreB t p f) Tin Tb (ki.eval Tin Tb) (ko.eval Tin Tb) ∧
      ∀ x y, Solves t f (boreA t p f) (boreB t p f) Tin Tb x y → x = ki.eval Tin Tb ∧ y = ko.eval Tin Tb := by
  classical
  obtain ⟨rank, hrank⟩ := fedBy_rank h f
  have hM : IsUnit (1 - cOut n t f * diagA (boreA t p f)).det := by
    rw [cOut_rel]
    exact rel_nonsingular _ (fun i j k => fedBy_functional h f i j k) rank hrank _
  obtain ⟨ki, ko, h1, h2, hlin⟩ := linear_system (cOut n t f) (cIn n (flowInlets t f)) (boreA t p f)
    (boreB t p f) hM
  refine ⟨ki, ko, h1, h2, ?_⟩
  intro Tin Tb
  refine ⟨?_, ?_⟩
  · rw [← linear_iff_solves h]
    exact (hlin Tin Tb _ _).mpr ⟨rfl, rfl⟩
  · intro x y hs
    rw [← linear_iff_solves h] at hs
    exact (hlin Tin Tb x y).mp hs

/-- **C34** (heat extraction of boreholes).  The fluid heat extraction rate of each borehole is
`|m| cp (T_out - T_in)` of that borehole, and the heat extraction rates of its segments are
those of its own model at its own inlet temperature. -/
theorem network_borehole_heat (p : (i : Fin n) → Pipe (ns i)) (f : Formatted)
    (k : Coef (Fin n) ns) (Tin : ℝ) (Tb : SegIdx ns → ℝ) :
    (∀ i, (fluidHeat t p f k).eval Tin Tb i = |mBore t f i| * f.cp *
      ((boreA t p f i * k.eval Tin Tb i + ∑ s, boreB t p f i s * Tb ⟨i, s⟩) - k.eval Tin Tb i)) ∧
    (∀ s : SegIdx ns, (boreHeat t p f k).eval Tin Tb s = (p s.1).heatA (mBore t f s.1) f.cp s.2 * k.eval Tin Tb s.1
      + ∑ s', (p s.1).heatB (mBore t f s.1) f.cp s.2 s' * Tb ⟨s.1, s'⟩) := by
  constructor
  · intro i
    simp only [Coef.eval, fluidHeat]
    rw [diagA_mulVec, Matrix.add_mulVec, Pi.add_apply, ← Matrix.mulVec_mulVec, diagA_mulVec, blockB_mulVec]
    simp only [Pipe.fluidA, Pipe.fluidB, boreA, boreB]
    rw [Finset.sum_congr rfl fun s _ => mul_assoc (|mBore t f i| * f.cp) _ _, ← Finset.mul_sum]
    ring
  · intro s
    simp only [Coef.eval, boreHeat]
    have hcol : ∀ v : Fin n → ℝ, (blockCol (fun i => (p i).heatA (mBore t f i) f.cp) *ᵥ v) s
        = (p s.1).heatA (mBore t f s.1) f.cp s.2 * v s.1 := by
      intro v
      rw [Matrix.mulVec, dotProduct, Finset.sum_eq_single s.1]
      · simp [blockCol]
      · intro j _ hj
        have : ¬ s.1 = j := fun e => hj e.symm
        simp [blockCol, this]
      · simp
    rw [hcol, Matrix.add_mulVec, Pi.add_apply, ← Matrix.mulVec_mulVec, hcol]
    have hB : (Matrix.blockDiagonal' (fun i => (p i).heatB (mBore t f i) f.cp) *ᵥ Tb) s
        = ∑ s', (p s.1).heatB (mBore t f s.1) f.cp s.2 s' * Tb ⟨s.1, s'⟩ := by
      obtain ⟨i, a⟩ := s
      rw [Matrix.mulVec, dotProduct, Fintype.sum_sigma, Finset.sum_eq_single i]
      · apply Finset.sum_congr rfl
        intro b _
        rw [Matrix.blockDiagonal'_apply_eq]
      · intro j _ hj
        apply Finset.sum_eq_zero
        intro b _
        rw [Matrix.blockDiagonal'_apply_ne _ _ _ (Ne.symm hj), zero_mul]
      · simp
    rw [hB]
    ring

/-- **C34** (inverse).  The network inlet temperature computed from a total heat extraction rate
reproduces that heat extraction rate. -/
theorem network_inlet_roundtrip (k : Coef Unit ns) :
    (netFromHeat k = none ↔ k.aIn () = 0) ∧
    ∀ k', netFromHeat k = some k' → ∀ Q Tb, k.eval (k'.eval Q Tb ()) Tb () = Q := by
  constructor
  · unfold netFromHeat; split_ifs with h <;> simp [h]
  · intro k' hk Q Tb
    unfold netFromHeat at hk
    split_ifs at hk with h
    simp only [Option.some.injEq] at hk
    subst hk
    simp only [Coef.eval, Matrix.mulVec, dotProduct]
    have : ∑ s, -((k.aIn ())⁻¹ * k.aB () s) * Tb s = -((k.aIn ())⁻¹ * ∑ s, k.aB () s * Tb s) := by
      rw [Finset.mul_sum, ← Finset.sum_neg_distrib]
      apply Finset.sum_congr rfl
      intro s _
      ring
    rw [this]
    field_simp
    ring

/-! ### C35 -/

theorem nodup_idx {α : Type*} {l : List α} (hnd : l.Nodup) {k k' : ℕ} {a : α} (h : l[k]? = some a)
    (h' : l[k']? = some a) : k = k' := by
  obtain ⟨h1, h2⟩ := List.getElem?_eq_some_iff.mp h
  obtain ⟨h3, h4⟩ := List.getElem?_eq_some_iff.mp h'
  exact (hnd.getElem_inj_iff (hi := h1) (hj := h3)).mp (h2.trans h4.symm)

theorem sum_map_div (l : List ℝ) (S : ℝ) : (l.map fun a => a / S).sum = l.sum / S := by
  induction l with
  | nil => simp
  | cons a l ih => rw [List.map_cons, List.sum_cons, List.sum_cons, ih, add_div]

/-- Sum over boreholes of a list. -/
theorem sum_list (L : List ℕ) (hnd : L.Nodup) (hlt : ∀ i ∈ L, i < n) (g : ℕ → ℝ) :
    ∑ i : Fin n, (if (i : ℕ) ∈ L then g i else 0) = (L.map g).sum := by
  rw [Fin.sum_univ_eq_sum_range (fun i => if i ∈ L then g i else 0) n, ← Finset.sum_filter,
    ← List.sum_toFinset g hnd]
  apply Finset.sum_congr
  · ext i
    simp only [Finset.mem_filter, Finset.mem_range, List.mem_toFinset]
    exact ⟨fun h => h.2, fun h => ⟨hlt i h, h⟩⟩
  · intro i _; rfl

theorem flowOutlets_iff (h : construct n conn = .ok t) (f : Formatted) (j : Fin n) :
    (j : ℕ) ∈ flowOutlets t f ↔ ∀ i : Fin n, ¬ FedBy t f i j := by
  have := flowInlets_iff h ⟨f.mIn, !f.rev, f.cp⟩ j
  unfold flowInlets FedBy at this
  unfold flowOutlets FedBy
  cases hf : f.rev <;> simpa [hf] using this

theorem fedBy_injective (h : construct n conn = .ok t) (f : Formatted) (i k j : Fin n)
    (h1 : FedBy t f i j) (h2 : FedBy t f k j) : i = k := by
  have := fedBy_functional h ⟨f.mIn, !f.rev, f.cp⟩ j i k
  unfold FedBy at this h1 h2
  cases hf : f.rev <;> simp only [hf, Bool.not_true, Bool.not_false, if_true, if_false, Bool.false_eq_true] at this h1 h2 <;>
    exact this h1 h2

theorem circuit_fedBy (h : construct n conn = .ok t) (f : Formatted) (i j : Fin n) (hij : FedBy t f i j) :
    t.iCircuit[(i : ℕ)]? = t.iCircuit[(j : ℕ)]? := by
  have hkey : ∀ a b : Fin n, t.c[(a : ℕ)]? = some ((b : ℕ) : ℤ) → t.iCircuit[(a : ℕ)]? = t.iCircuit[(b : ℕ)]? := by
    intro a b hab
    obtain ⟨-, -, hv, hin, -, -, -, -, -, hc⟩ := construct_ok h
    obtain ⟨d, r, k, hu, hk, hk'⟩ := hc a a.2
    obtain ⟨d2, r2, k2, hu2, hk2, hk2'⟩ := hc b b.2
    obtain ⟨-, rfl⟩ := hu.det (Up.step d2 a b r2 hab hu2)
    have hnd : t.iInlets.Nodup := by rw [hin]; exact inletList_nodup _ _
    have := nodup_idx hnd hk hk2
    rw [hk', hk2', this]
  unfold FedBy at hij
  cases hf : f.rev <;> simp only [hf, if_true, if_false, Bool.false_eq_true] at hij
  · exact hkey i j hij
  · exact (hkey j i hij).symm

theorem mBore_fedBy (h : construct n conn = .ok t) (f : Formatted) (i j : Fin n) (hij : FedBy t f i j) :
    mBore t f i = mBore t f j := by
  unfold mBore
  rw [List.getD_eq_getElem?_getD (l := t.iCircuit), List.getD_eq_getElem?_getD (l := t.iCircuit), circuit_fedBy h f i j hij]

/-- Heat flows telescope along the circuits. -/
theorem telescoping (h : construct n conn = .ok t) (f : Formatted) (Tin : ℝ) (x y : Fin n → ℝ)
    (hfed : ∀ i j : Fin n, FedBy t f i j → x i = y j)
    (hin : ∀ i : Fin n, (∀ j : Fin n, ¬ FedBy t f i j) → x i = Tin) :
    ∑ i : Fin n, |mBore t f i| * (y i - x i)
      = ∑ i : Fin n, (if (i : ℕ) ∈ flowOutlets t f then |mBore t f i| * y i else 0)
        - Tin * ∑ i : Fin n, (if (i : ℕ) ∈ flowInlets t f then |mBore t f i| else 0) := by
  classical
  have hx : ∀ i : Fin n, |mBore t f i| * x i = (∑ j : Fin n, if FedBy t f i j then |mBore t f j| * y j else 0)
      + Tin * (if (i : ℕ) ∈ flowInlets t f then |mBore t f i| else 0) := by
    intro i
    by_cases hex : ∃ j : Fin n, FedBy t f i j
    · obtain ⟨j, hj⟩ := hex
      have hni : (i : ℕ) ∉ flowInlets t f := by
        rw [flowInlets_iff h]; push Not; exact ⟨j, hj⟩
      rw [if_neg hni, Finset.sum_eq_single j]
      · rw [if_pos hj, hfed i j hj, mBore_fedBy h f i j hj]; ring
      · intro k _ hk
        rw [if_neg fun hk' => hk (fedBy_functional h f i k j hk' hj)]
      · simp
    · have hno : ∀ j : Fin n, ¬ FedBy t f i j := fun j hj => hex ⟨j, hj⟩
      rw [if_pos ((flowInlets_iff h f i).mpr hno), hin i hno, Finset.sum_eq_zero fun j _ => if_neg (hno j)]
      ring
  have hcol : ∀ j : Fin n, (∑ i : Fin n, if FedBy t f i j then |mBore t f j| * y j else 0)
      = |mBore t f j| * y j - if (j : ℕ) ∈ flowOutlets t f then |mBore t f j| * y j else 0 := by
    intro j
    by_cases hex : ∃ i : Fin n, FedBy t f i j
    · obtain ⟨i, hi⟩ := hex
      have hno : (j : ℕ) ∉ flowOutlets t f := by
        rw [flowOutlets_iff h]; push Not; exact ⟨i, hi⟩
      rw [if_neg hno, Finset.sum_eq_single i]
      · rw [if_pos hi]; ring
      · intro k _ hk
        rw [if_neg fun hk' => hk (fedBy_injective h f k i j hk' hi)]
      · simp
    · have hno : ∀ i : Fin n, ¬ FedBy t f i j := fun i hi => hex ⟨i, hi⟩
      rw [if_pos ((flowOutlets_iff h f j).mpr hno), Finset.sum_eq_zero fun i _ => if_neg (hno i)]
      ring
  have hsum : ∑ i : Fin n, |mBore t f i| * x i
      = (∑ j : Fin n, (|mBore t f j| * y j - if (j : ℕ) ∈ flowOutlets t f then |mBore t f j| * y j else 0))
        + Tin * ∑ i : Fin n, (if (i : ℕ) ∈ flowInlets t f then |mBore t f i| else 0) := by
    rw [Finset.sum_congr rfl fun i _ => hx i, Finset.sum_add_distrib, Finset.sum_comm,
      Finset.sum_congr rfl fun j _ => hcol j, Finset.mul_sum]
  have : ∑ i : Fin n, |mBore t f i| * (y i - x i) = ∑ i : Fin n, |mBore t f i| * y i - ∑ i : Fin n, |mBore t f i| * x i := by
    rw [← Finset.sum_sub_distrib]
    exact Finset.sum_congr rfl fun i _ => by ring
  rw [this, hsum, Finset.sum_sub_distrib]
  ring

theorem circuit_inlet (h : construct n conn = .ok t) (k r : ℕ) (hk : t.iInlets[k]? = some r) :
    t.iCircuit[r]? = some k := by
  obtain ⟨-, -, hv, hin, -, -, -, -, -, hc⟩ := construct_ok h
  have hrm : r ∈ inletList n t.c := by rw [← hin]; exact List.mem_of_getElem? hk
  obtain ⟨hrn, hrc⟩ := (inletList_mem r).mp hrm
  obtain ⟨d, r', k', hu, hk', hc'⟩ := hc r hrn
  obtain ⟨-, rfl⟩ := (Up.inlet r hrc).det hu
  have hnd : t.iInlets.Nodup := by rw [hin]; exact inletList_nodup _ _
  have := nodup_idx hnd hk hk'
  rw [hc', this]

/-- The flow rates of the inlet boreholes are those of the circuits. -/
theorem inlet_flows (h : construct n conn = .ok t) (f : Formatted) (hlen : f.mIn.length = t.nInlets) :
    t.iInlets.map (fun i => mBore t f i) = f.mIn := by
  obtain ⟨-, -, -, -, -, hni, -⟩ := construct_ok h
  apply List.ext_getElem
  · simp [hlen, hni]
  · intro k h1 h2
    simp only [List.length_map] at h1
    have hk : t.iInlets[k]? = some t.iInlets[k] := List.getElem?_eq_getElem h1
    have := circuit_inlet h k _ hk
    rw [List.getElem_map, mBore, List.getD_eq_getElem?_getD (l := t.iCircuit), this, Option.getD_some,
      List.getD_eq_getElem _ _ h2]

theorem lists_ok (h : construct n conn = .ok t) (f : Formatted) :
    (flowInlets t f).Nodup ∧ (flowOutlets t f).Nodup ∧ (∀ i ∈ flowInlets t f, i < n) ∧
    (∀ i ∈ flowOutlets t f, i < n) := by
  obtain ⟨-, -, -, hin, hout, -⟩ := construct_ok h
  have a1 : t.iInlets.Nodup := by rw [hin]; exact inletList_nodup _ _
  have a2 : t.iOutlets.Nodup := by rw [hout]; exact outletList_nodup _ _
  have a3 : ∀ i ∈ t.iInlets, i < n := by
    intro i hi; rw [hin] at hi; exact ((inletList_mem i).mp hi).1
  have a4 : ∀ i ∈ t.iOutlets, i < n := by
    intro i hi; rw [hout] at hi; exact ((outletList_mem i).mp hi).1
  unfold flowInlets flowOutlets
  cases f.rev
  · exact ⟨a1, a2, a3, a4⟩
  · exact ⟨a2, a1, a4, a3⟩

/-- As much fluid leaves the network as enters it. -/
theorem flow_conservation (h : construct n conn = .ok t) (f : Formatted) :
    ∑ i : Fin n, (if (i : ℕ) ∈ flowOutlets t f then |mBore t f i| else 0)
      = ∑ i : Fin n, (if (i : ℕ) ∈ flowInlets t f then |mBore t f i| else 0) := by
  have := telescoping h f 1 (fun _ => 1) (fun _ => 1) (fun _ _ _ => rfl) (fun _ _ => rfl)
  simp only [sub_self, mul_zero, Finset.sum_const_zero, mul_one, one_mul] at this
  linarith

/-- Total flow rate entering the network. -/
theorem inlet_total (h : construct n conn = .ok t) (f : Formatted) (hlen : f.mIn.length = t.nInlets) :
    ∑ i : Fin n, (if (i : ℕ) ∈ flowInlets t f then |mBore t f i| else 0) = (f.mIn.map abs).sum := by
  have hpos : ∑ i : Fin n, (if (i : ℕ) ∈ t.iInlets then |mBore t f i| else 0) = (f.mIn.map abs).sum := by
    have hl := lists_ok h ⟨f.mIn, false, f.cp⟩
    rw [sum_list t.iInlets hl.1 hl.2.2.1 (fun i => |mBore t f i|), ← inlet_flows h f hlen, List.map_map]
    congr 1
  have hcons := flow_conservation h f
  unfold flowInlets flowOutlets at *
  cases hf : f.rev
  · simpa [hf] using hpos
  · simp only [hf, if_true] at hcons ⊢
    rw [← hcons]; exact hpos

/-- Specification: the `k`-th outlet borehole belongs to a circuit with the flow rate of circuit
`k`, in the direction of flow. -/
def Aligned (t : Topology) (f : Formatted) : Prop :=
  ∀ k o, (flowOutlets t f)[k]? = some o → f.mIn.getD k 0 = mBore t f o

theorem mixing_aligned (h : construct n conn = .ok t) (f : Formatted) (ha : Aligned t f) (i : Fin n) :
    mixing (flowOutlets t f) f.mIn i
      = (if (i : ℕ) ∈ flowOutlets t f then |mBore t f i| else 0) / (f.mIn.map abs).sum := by
  unfold mixing
  cases hk : (flowOutlets t f).findIdx? (· = (i : ℕ)) with
  | none =>
    rw [List.findIdx?_eq_none_iff] at hk
    have : (i : ℕ) ∉ flowOutlets t f := fun hm => by
      have := hk i hm
      simp at this
    rw [if_neg this, zero_div]
  | some k =>
    rw [List.findIdx?_eq_some_iff_getElem] at hk
    obtain ⟨hlt, hp, -⟩ := hk
    simp only [decide_eq_true_eq] at hp
    have hm : (i : ℕ) ∈ flowOutlets t f := by rw [← hp]; exact List.getElem_mem _
    have := ha k i (by rw [List.getElem?_eq_getElem hlt, hp])
    simp only
    rw [this, if_pos hm]

theorem mixed_eval (w : ℕ → ℝ) (k : Coef (Fin n) ns) (Tin : ℝ) (Tb : SegIdx ns → ℝ) :
    (netMixed w k).eval Tin Tb () = ∑ i : Fin n, w i * k.eval Tin Tb i := by
  simp only [Coef.eval, netMixed, Matrix.mulVec, dotProduct]
  simp only [mul_add, Finset.sum_add_distrib, Finset.sum_mul, Finset.mul_sum]
  congr 1
  · exact Finset.sum_congr rfl fun i _ => by ring
  · rw [Finset.sum_comm]
    exact Finset.sum_congr rfl fun i _ => Finset.sum_congr rfl fun s _ => by ring

theorem netHeat_eval (k : Coef (Fin n) ns) (Tin : ℝ) (Tb : SegIdx ns → ℝ) :
    (netHeat k).eval Tin Tb () = ∑ i : Fin n, k.eval Tin Tb i := by
  simp only [Coef.eval, netHeat, Matrix.mulVec, dotProduct, Finset.sum_add_distrib, Finset.sum_mul]
  congr 1
  rw [Finset.sum_comm]

/-- Total heat as a sum over outlets, without mixing. -/
theorem heat_total (h : construct n conn = .ok t) (p : (i : Fin n) → Pipe (ns i)) (f : Formatted)
    (hlen : f.mIn.length = t.nInlets) (ki ko : Coef (Fin n) ns) (hki : netInlet t p f = some ki)
    (hko : netOutlet t p f = some ko) (Tin : ℝ) (Tb : SegIdx ns → ℝ) :
    (netHeat (fluidHeat t p f ki)).eval Tin Tb () = f.cp *
      (∑ i : Fin n, (if (i : ℕ) ∈ flowOutlets t f then |mBore t f i| * ko.eval Tin Tb i else 0)
        - Tin * (f.mIn.map abs).sum) := by
  obtain ⟨ki', ko', h1, h2, hs⟩ := network_temperatures h p f
  rw [hki] at h1; rw [hko] at h2
  simp only [Option.some.injEq] at h1 h2
  subst h1; subst h2
  obtain ⟨hsol, -⟩ := hs Tin Tb
  rw [netHeat_eval, Finset.sum_congr rfl fun i _ => (network_borehole_heat p f ki Tin Tb).1 i]
  rw [← inlet_total h f hlen, ← telescoping h f Tin (ki.eval Tin Tb) (ko.eval Tin Tb) hsol.fed hsol.inlet,
    Finset.mul_sum]
  apply Finset.sum_congr rfl
  intro i _
  rw [← hsol.model i]
  ring

/-- **C35** (the part that holds).  The heat extracted from the network is the total flow rate times the
heat capacity times the temperature rise between network inlet and mixed outlet, provided the `k`-th
outlet borehole carries the flow rate of the `k`-th circuit.  Missing: networks where outlets
are in another order than the circuits and the flow rates differ (`energy_balance_fails`). -/
theorem energy_balance_partial (h : construct n conn = .ok t) (p : (i : Fin n) → Pipe (ns i)) (f : Formatted)
    (hlen : f.mIn.length = t.nInlets) (hflow : (f.mIn.map abs).sum ≠ 0) (ha : Aligned t f)
    (ki ko : Coef (Fin n) ns) (hki : netInlet t p f = some ki) (hko : netOutlet t p f = some ko)
    (Tin : ℝ) (Tb : SegIdx ns → ℝ) :
    (netHeat (fluidHeat t p f ki)).eval Tin Tb () = (f.mIn.map abs).sum * f.cp *
      ((netMixed (mixing (flowOutlets t f) f.mIn) ko).eval Tin Tb () - Tin) := by
  have hw : ∑ i : Fin n, mixing (flowOutlets t f) f.mIn i * ko.eval Tin Tb i
      = ∑ i : Fin n, (if (i : ℕ) ∈ flowOutlets t f then |mBore t f i| else 0) / (f.mIn.map abs).sum
        * ko.eval Tin Tb i :=
    Finset.sum_congr rfl fun i _ => by rw [mixing_aligned h f ha i]
  rw [heat_total h p f hlen ki ko hki hko, mixed_eval, hw]
  have : ∑ i : Fin n, (if (i : ℕ) ∈ flowOutlets t f then |mBore t f i| else 0) / (f.mIn.map abs).sum * ko.eval Tin Tb i
      = (∑ i : Fin n, (if (i : ℕ) ∈ flowOutlets t f then |mBore t f i| * ko.eval Tin Tb i else 0))
        / (f.mIn.map abs).sum := by
    rw [Finset.sum_div]
    apply Finset.sum_congr rfl
    intro i _
    split_ifs <;> ring
  rw [this]
  field_simp

theorem format_ok {m cp : List ℝ} {f : Formatted} (hf : format t m cp = .ok f) :
    f.mIn.length = t.nInlets ∧ (f.rev = false → ∀ a ∈ m, 0 ≤ a) ∧ (f.rev = true → ∀ a ∈ m, a ≤ 0) ∧
    (∀ a, m = [a] → f.mIn = List.replicate t.nInlets (a / t.nInlets)) ∧
    (m.length ≠ 1 → f.mIn = m) := by
  have hfl : ∀ l, formatFlow t.nInlets m = .ok l → l.length = t.nInlets ∧
      (∀ a, m = [a] → l = List.replicate t.nInlets (a / t.nInlets)) ∧ (m.length ≠ 1 → l = m) := by
    intro l hl
    unfold formatFlow at hl
    split at hl
    · simp only [Except.ok.injEq] at hl
      subst hl
      refine ⟨by simp, ?_, by simp⟩
      intro a ha
      simp only [List.cons.injEq, and_true] at ha
      rw [ha]
    · rename_i hne
      split_ifs at hl with hlen
      simp only [Except.ok.injEq] at hl
      subst hl
      exact ⟨hlen, fun a ha => absurd ha (hne a), fun _ => rfl⟩
  unfold format at hf
  cases hm : formatFlow t.nInlets m with
  | error e => rw [hm] at hf; simp at hf
  | ok l =>
    obtain ⟨h1, h2, h3⟩ := hfl l hm
    rw [hm] at hf
    simp only at hf
    split_ifs at hf with hp hq
    · cases hc : formatCp t.nInlets cp with
      | error e => rw [hc] at hf; simp at hf
      | ok c =>
        rw [hc] at hf
        simp only [Except.ok.injEq] at hf
        subst hf
        exact ⟨h1, fun _ => hp, by simp, h2, h3⟩
    · cases hc : formatCp t.nInlets cp with
      | error e => rw [hc] at hf; simp at hf
      | ok c =>
        rw [hc] at hf
        simp only [Except.ok.injEq] at hf
        subst hf
        exact ⟨h1, by simp, fun _ => hq, h2, h3⟩

theorem aligned_rev (h : construct n conn = .ok t) (f : Formatted) (hr : f.rev = true) : Aligned t f := by
  intro k o hk
  unfold flowOutlets at hk
  rw [if_pos hr] at hk
  have := circuit_inlet h k o hk
  rw [mBore, List.getD_eq_getElem?_getD (l := t.iCircuit), this, Option.getD_some]

theorem aligned_uniform (h : construct n conn = .ok t) (f : Formatted) (hlen : f.mIn.length = t.nInlets) (v : ℝ)
    (hv : ∀ a ∈ f.mIn, a = v) : Aligned t f := by
  have hget : ∀ k, k < t.nInlets → f.mIn.getD k 0 = v := by
    intro k hk
    rw [List.getD_eq_getElem _ _ (by rw [hlen]; exact hk)]
    exact hv _ (List.getElem_mem _)
  have hb : ∀ o, o < n → mBore t f o = v := by
    intro o ho
    obtain ⟨-, -, -, -, -, hc, -⟩ := circuits_decompose n conn t h
    obtain ⟨k, hk, hck⟩ := hc o ho
    rw [mBore, List.getD_eq_getElem?_getD (l := t.iCircuit), hck, Option.getD_some, hget k hk]
  intro k o hk
  have ho := (lists_ok h f).2.2.2 o (List.mem_of_getElem? hk)
  have hlen2 : (flowOutlets t f).length = t.nInlets := by
    obtain ⟨-, -, -, -, -, h6, h7, h8, -⟩ := construct_ok h
    unfold flowOutlets
    cases f.rev
    · simp [← h7, h8]
    · simp [← h6]
  rw [hb o ho, hget k (by rw [← hlen2]; exact (List.getElem?_eq_some_iff.mp hk).1)]

theorem sum_abs_replicate (k : ℕ) (hk : 0 < k) (a : ℝ) :
    ((List.replicate k (a / k)).map abs).sum = |a| := by
  rw [List.map_replicate, List.sum_replicate, nsmul_eq_mul, abs_div, Nat.abs_cast]
  have : (k : ℝ) ≠ 0 := by exact_mod_cast hk.ne'
  field_simp

theorem nInlets_pos (h : construct n conn = .ok t) : 0 < t.nInlets := by
  obtain ⟨-, -, hv, -, -, hni, -, -, -, hc⟩ := construct_ok h
  obtain ⟨d, r, k, -, hk, -⟩ := hc 0 hv.pos
  have := (List.getElem?_eq_some_iff.mp hk).1
  omega

/-- **C35** (total flow rate).  When a single network flow rate is given, in either direction, the
energy balance holds for every topology. -/
theorem energy_balance_total_flow (h : construct n conn = .ok t) (p : (i : Fin n) → Pipe (ns i)) (m : ℝ)
    (hm : m ≠ 0) (cp : List ℝ) (f : Formatted) (hf : format t [m] cp = .ok f)
    (ki ko : Coef (Fin n) ns) (hki : netInlet t p f = some ki) (hko : netOutlet t p f = some ko)
    (Tin : ℝ) (Tb : SegIdx ns → ℝ) :
    (netHeat (fluidHeat t p f ki)).eval Tin Tb () = |m| * f.cp *
      ((netMixed (mixing (flowOutlets t f) f.mIn) ko).eval Tin Tb () - Tin) := by
  obtain ⟨hlen, -, -, hrep, -⟩ := format_ok hf
  have hrep := hrep m rfl
  have hsum : (f.mIn.map abs).sum = |m| := by rw [hrep]; exact sum_abs_replicate _ (nInlets_pos h) m
  have := energy_balance_partial h p f hlen (by rw [hsum]; exact abs_ne_zero.mpr hm)
    (aligned_uniform h f hlen (m / t.nInlets) (by rw [hrep]; exact fun a ha => List.eq_of_mem_replicate ha))
    ki ko hki hko Tin Tb
  rw [hsum] at this
  exact this

/-- **C35** (reversed flow).  For reversed flow the energy balance holds for every topology and all
flow rates of the circuits. -/
theorem energy_balance_reversed (h : construct n conn = .ok t) (p : (i : Fin n) → Pipe (ns i))
    (m cp : List ℝ) (f : Formatted) (hf : format t m cp = .ok f) (hr : f.rev = true)
    (hflow : (f.mIn.map abs).sum ≠ 0)
    (ki ko : Coef (Fin n) ns) (hki : netInlet t p f = some ki) (hko : netOutlet t p f = some ko)
    (Tin : ℝ) (Tb : SegIdx ns → ℝ) :
    (netHeat (fluidHeat t p f ki)).eval Tin Tb () = (f.mIn.map abs).sum * f.cp *
      ((netMixed (mixing (flowOutlets t f) f.mIn) ko).eval Tin Tb () - Tin) :=
  energy_balance_partial h p f (format_ok hf).1 hflow (aligned_rev h f hr) ki ko hki hko Tin Tb

/-- A borehole model whose outlet temperature is the wall temperature. -/
def wallPipe : Pipe 1 where
  outA := fun _ _ => 0
  outB := fun _ _ _ => 1
  heatA := fun _ _ _ => 0
  heatB := fun _ _ _ _ => 0

/-- **C35** (violated).  Four boreholes in two crossed circuits (0 then 3, 1 then 2) with flow rates 1
and 3: the heat extracted is not the total flow rate times the temperature rise. -/
theorem energy_balance_fails : ∃ (t : Topology) (f : Formatted) (ki ko : Coef (Fin 4) fun _ => 1)
    (Tb : SegIdx (fun _ : Fin 4 => 1) → ℝ),
    construct 4 (some [-1, -1, 1, 0]) = .ok t ∧ format t [1, 3] [1] = .ok f ∧
    netInlet t (fun _ => wallPipe) f = some ki ∧ netOutlet t (fun _ => wallPipe) f = some ko ∧
    (netHeat (fluidHeat t (fun _ => wallPipe) f ki)).eval 0 Tb () = 3 ∧
    (f.mIn.map abs).sum * f.cp * ((netMixed (mixing (flowOutlets t f) f.mIn) ko).eval 0 Tb () - 0) = 1 := by
  obtain ⟨t, htd⟩ : ∃ t : Topology, t = ⟨4, [-1, -1, 1, 0], 2, 2, [0, 1], [2, 3], [0, 1, 1, 0]⟩ := ⟨_, rfl⟩
  have ht : construct 4 (some [-1, -1, 1, 0]) = .ok t := by rw [htd]; rfl
  obtain ⟨f, hfd⟩ : ∃ f : Formatted, f = ⟨[1, 3], false, 1⟩ := ⟨_, rfl⟩
  have hf : format t [1, 3] [1] = .ok f := by
    rw [htd, hfd]
    simp [format, formatFlow, formatCp]
  obtain ⟨ki, ko, hki, hko, hs⟩ := network_temperatures ht (fun _ => wallPipe) f
  obtain ⟨Tb, hTb⟩ : ∃ Tb : SegIdx (fun _ : Fin 4 => 1) → ℝ, Tb = fun s => if s.1 = 2 then 1 else 0 := ⟨_, rfl⟩
  have hsol : Solves t f (boreA t (fun _ => wallPipe) f) (boreB t (fun _ => wallPipe) f) 0 Tb
      (fun _ => 0) (fun i => if i = 2 then 1 else 0) := by
    refine ⟨?_, ?_, ?_⟩
    · intro i
      simp [boreA, boreB, wallPipe, hTb]
    · intro i j hij
      have : j ≠ 2 := by
        rintro rfl
        rw [FedBy, hfd, htd] at hij
        fin_cases i <;> simp at hij
      rw [if_neg this]
    · intro i _; rfl
  obtain ⟨-, hy⟩ := (hs 0 Tb).2 _ _ hsol
  have hyi : ∀ i, ko.eval 0 Tb i = if i = 2 then 1 else 0 := fun i => by rw [← hy]
  have hout : flowOutlets t f = [2, 3] := by rw [hfd, htd]; rfl
  refine ⟨t, f, ki, ko, Tb, ht, hf, hki, hko, ?_, ?_⟩
  · rw [heat_total ht _ f (by rw [hfd, htd]; rfl) ki ko hki hko, hout]
    simp only [hyi]
    rw [Fin.sum_univ_four, hfd, htd]
    simp [mBore]
  · rw [mixed_eval, hout]
    simp only [hyi]
    rw [Fin.sum_univ_four, hfd]
    simp [mixing, List.findIdx?_cons]
    norm_num

/-- **C35** (segments).  If in every borehole model the segment heat extraction rates add up to the
heat gained by the fluid, the heat extraction rates of all segments add up to that of the network. -/
theorem segment_heat_balance (p : (i : Fin n) → Pipe (ns i)) (f : Formatted)
    (hA : ∀ i, ∑ s, (p i).heatA (mBore t f i) f.cp s = (p i).fluidA (mBore t f i) f.cp)
    (hB : ∀ i s', ∑ s, (p i).heatB (mBore t f i) f.cp s s' = (p i).fluidB (mBore t f i) f.cp s')
    (k : Coef (Fin n) ns) (Tin : ℝ) (Tb : SegIdx ns → ℝ) :
    ∑ s, (boreHeat t p f k).eval Tin Tb s = (netHeat (fluidHeat t p f k)).eval Tin Tb () := by
  rw [netHeat_eval, Fintype.sum_sigma]
  apply Finset.sum_congr rfl
  intro i _
  have h2 := (network_borehole_heat (t := t) p f k Tin Tb).1 i
  rw [h2, Finset.sum_congr rfl fun s _ => (network_borehole_heat (t := t) p f k Tin Tb).2 ⟨i, s⟩]
  dsimp only
  have hBs : ∑ s, ∑ s', (p i).heatB (mBore t f i) f.cp s s' * Tb ⟨i, s'⟩
      = ∑ s', (p i).fluidB (mBore t f i) f.cp s' * Tb ⟨i, s'⟩ := by
    have := Finset.sum_comm (s := Finset.univ) (t := Finset.univ)
      (f := fun s s' => (p i).heatB (mBore t f i) f.cp s s' * Tb ⟨i, s'⟩)
    rw [this]
    exact Finset.sum_congr rfl fun s' _ => by rw [← Finset.sum_mul, hB i]
  rw [Finset.sum_add_distrib, ← Finset.sum_mul, hA i, hBs]
  simp only [Pipe.fluidA, Pipe.fluidB, boreA, boreB]
  rw [Finset.sum_congr rfl fun s _ => mul_assoc (|mBore t f i| * f.cp) _ _, ← Finset.mul_sum]
  ring

/-! ### C36 -/

/-- **C36.**  If the network inlet and all borehole walls are at temperature `T`, then all fluid
temperatures are `T`, and all heat extraction rates vanish, provided every borehole model has
this property. -/
theorem network_equilibrium (h : construct n conn = .ok t) (p : (i : Fin n) → Pipe (ns i)) (f : Formatted)
    (hlen : f.mIn.length = t.nInlets) (hflow : (f.mIn.map abs).sum ≠ 0)
    (hp : ∀ i, boreA t p f i + ∑ s, boreB t p f i s = 1)
    (hq : ∀ i s, (p i).heatA (mBore t f i) f.cp s + ∑ s', (p i).heatB (mBore t f i) f.cp s s' = 0)
    (ki ko : Coef (Fin n) ns) (hki : netInlet t p f = some ki) (hko : netOutlet t p f = some ko) (T : ℝ) :
    (∀ i, ki.eval T (fun _ => T) i = T) ∧ (∀ i, ko.eval T (fun _ => T) i = T) ∧
    (∀ s, (boreHeat t p f ki).eval T (fun _ => T) s = 0) ∧
    (∀ i, (fluidHeat t p f ki).eval T (fun _ => T) i = 0) ∧
    (netHeat (fluidHeat t p f ki)).eval T (fun _ => T) () = 0 ∧
    (netMixed (mixing (flowOutlets t f) f.mIn) ko).eval T (fun _ => T) () = T := by
  obtain ⟨ki', ko', h1, h2, hs⟩ := network_temperatures h p f
  rw [hki] at h1; rw [hko] at h2
  simp only [Option.some.injEq] at h1 h2
  subst h1; subst h2
  have hm : ∀ i, boreA t p f i * T + ∑ s, boreB t p f i s * T = T := by
    intro i
    rw [← Finset.sum_mul, ← add_mul, hp i, one_mul]
  obtain ⟨hx, hy⟩ := (hs T fun _ => T).2 (fun _ => T) (fun _ => T)
    ⟨fun i => (hm i).symm, fun _ _ _ => rfl, fun _ _ => rfl⟩
  have hxi : ∀ i, ki.eval T (fun _ => T) i = T := fun i => (congrFun hx i).symm
  have hyi : ∀ i, ko.eval T (fun _ => T) i = T := fun i => (congrFun hy i).symm
  have hfl : ∀ i, (fluidHeat t p f ki).eval T (fun _ => T) i = 0 := by
    intro i
    rw [(network_borehole_heat p f ki T fun _ => T).1 i, hxi i, hm i, sub_self, mul_zero]
  refine ⟨hxi, hyi, ?_, hfl, ?_, ?_⟩
  · intro s
    rw [(network_borehole_heat p f ki T fun _ => T).2 s, hxi, ← Finset.sum_mul, ← add_mul, hq, zero_mul]
  · rw [netHeat_eval, Finset.sum_eq_zero fun i _ => hfl i]
  · rw [mixed_eval, Finset.sum_congr rfl fun i _ => by rw [hyi i], ← Finset.sum_mul]
    have hw : ∑ i : Fin n, mixing (flowOutlets t f) f.mIn i = 1 := by
      have hl := lists_ok h f
      have hlen2 : (flowOutlets t f).length = f.mIn.length := by
        obtain ⟨-, -, -, -, -, h6, h7, h8, -⟩ := construct_ok h
        rw [hlen]
        unfold flowOutlets
        cases f.rev
        · simp [← h7, h8]
        · simp [← h6]
      have h1 : ∀ i : Fin n, mixing (flowOutlets t f) f.mIn i
          = if (i : ℕ) ∈ flowOutlets t f then mixing (flowOutlets t f) f.mIn i else 0 := by
        intro i
        split_ifs with hi
        · rfl
        · unfold mixing
          have : (flowOutlets t f).findIdx? (· = (i : ℕ)) = none := by
            rw [List.findIdx?_eq_none_iff]
            intro x hx
            simp only [decide_eq_false_iff_not]
            rintro rfl; exact hi hx
          rw [this]
      rw [Finset.sum_congr rfl fun i _ => h1 i, sum_list (flowOutlets t f) hl.2.1 hl.2.2.2
        (mixing (flowOutlets t f) f.mIn)]
      have h2 : (flowOutlets t f).map (mixing (flowOutlets t f) f.mIn)
          = (f.mIn.map abs).map (fun a => a / (f.mIn.map abs).sum) := by
        apply List.ext_getElem
        · simp [hlen2]
        · intro k h3 h4
          simp only [List.length_map] at h3 h4
          simp only [List.getElem_map]
          have : (flowOutlets t f).findIdx? (· = (flowOutlets t f)[k]) = some k := by
            rw [List.findIdx?_eq_some_iff_getElem]
            refine ⟨h3, by simp, ?_⟩
            intro j hj
            simp only [decide_eq_true_eq]
            intro he
            have := (hl.2.1.getElem_inj_iff (hi := by omega) (hj := h3)).mp he
            omega
          unfold mixing
          rw [this]
          simp only
          rw [List.getD_eq_getElem _ _ h4]
      rw [h2, sum_map_div]
      exact div_self hflow
    rw [hw, one_mul]

/-! ### C58: effective resistance -/

/-- **C58.**  The effective thermal resistance of a network relates the mean fluid temperature to a
uniform wall temperature: `T_b - (T_in + T_out) / 2 = R Q / H_tot`, for networks whose coefficients
respect thermal equilibrium. -/
theorem network_resistance_spec (Htot : ℝ) (out q : Coef Unit ns)
    (hH : Htot ≠ 0) (hQ : q.aIn () ≠ 0)
    (hout : ∀ T, out.eval T (fun _ => T) () = T) (hq : ∀ T, q.eval T (fun _ => T) () = 0) (Tin Tw : ℝ) :
    Tw - (Tin + out.eval Tin (fun _ => Tw) ()) / 2
      = netResistance Htot out q * q.eval Tin (fun _ => Tw) () / Htot := by
  have e1 := hout Tw
  have e2 := hq Tw
  simp only [Coef.eval] at e1 e2 ⊢
  obtain ⟨u, hu⟩ : ∃ u, u = (out.aB *ᵥ fun _ => Tw) () := ⟨_, rfl⟩
  obtain ⟨w, hw⟩ : ∃ w, w = (q.aB *ᵥ fun _ => Tw) () := ⟨_, rfl⟩
  rw [← hu] at e1 ⊢
  rw [← hw] at e2 ⊢
  have hu' : u = Tw - out.aIn () * Tw := by linarith
  have hw' : w = -(q.aIn () * Tw) := by linarith
  rw [hu', hw', netResistance]
  field_simp
  ring

/-- **C58** (network).  The same for every accepted network with borehole models that respect thermal
equilibrium. -/
theorem network_resistance (h : construct n conn = .ok t) (p : (i : Fin n) → Pipe (ns i)) (f : Formatted)
    (hlen : f.mIn.length = t.nInlets) (hflow : (f.mIn.map abs).sum ≠ 0)
    (hp : ∀ i, boreA t p f i + ∑ s, boreB t p f i s = 1)
    (hq : ∀ i s, (p i).heatA (mBore t f i) f.cp s + ∑ s', (p i).heatB (mBore t f i) f.cp s s' = 0)
    (ki ko : Coef (Fin n) ns) (hki : netInlet t p f = some ki) (hko : netOutlet t p f = some ko)
    (Htot : ℝ) (hH : Htot ≠ 0) (hQ : (netHeat (fluidHeat t p f ki)).aIn () ≠ 0) (Tin Tw : ℝ) :
    Tw - (Tin + (netMixed (mixing (flowOutlets t f) f.mIn) ko).eval Tin (fun _ => Tw) ()) / 2
      = netResistance Htot (netMixed (mixing (flowOutlets t f) f.mIn) ko) (netHeat (fluidHeat t p f ki))
        * (netHeat (fluidHeat t p f ki)).eval Tin (fun _ => Tw) () / Htot :=
  network_resistance_spec Htot _ _ hH hQ
    (fun T => (network_equilibrium h p f hlen hflow hp hq ki ko hki hko T).2.2.2.2.2)
    (fun T => (network_equilibrium h p f hlen hflow hp hq ki ko hki hko T).2.2.2.2.1) Tin Tw

/-- Non-vacuity of C36 and C58: a single borehole whose outlet is at the wall temperature. -/
example : ∃ (t : Topology) (f : Formatted) (ki : Coef (Fin 1) fun _ => 1), construct 1 none = .ok t ∧
    format t [2] [3] = .ok f ∧ netInlet t (fun _ => wallPipe) f = some ki ∧
    f.mIn.length = t.nInlets ∧ (f.mIn.map abs).sum ≠ 0 ∧
    (∀ i, boreA t (fun _ : Fin 1 => wallPipe) f i + ∑ s, boreB t (fun _ : Fin 1 => wallPipe) f i s = 1) ∧
    (netHeat (fluidHeat t (fun _ => wallPipe) f ki)).aIn () ≠ 0 := by
  obtain ⟨t, htd⟩ : ∃ t : Topology, t = ⟨1, [-1], 1, 1, [0], [0], [0]⟩ := ⟨_, rfl⟩
  have ht : construct 1 none = .ok t := by rw [htd]; rfl
  obtain ⟨f, hfd⟩ : ∃ f : Formatted, f = ⟨[2], false, 3⟩ := ⟨_, rfl⟩
  have hf : format t [2] [3] = .ok f := by
    rw [htd, hfd]; simp [format, formatFlow, formatCp]
  obtain ⟨ki, ko, hki, hko, hs⟩ := network_temperatures ht (fun _ : Fin 1 => wallPipe) f
  refine ⟨t, f, ki, ht, hf, hki, by rw [htd, hfd]; rfl, by rw [hfd]; simp, ?_, ?_⟩
  · intro i
    simp [boreA, boreB, wallPipe]
  · have h1 := (hs 1 0).1.inlet 0 (by
      intro j hj
      rw [FedBy, hfd, htd] at hj
      fin_cases j; simp at hj)
    have h2 := heat_total ht (fun _ : Fin 1 => wallPipe) f (by rw [htd, hfd]; rfl) ki ko hki hko 1 0
    have h3 := (hs 1 0).1.model 0
    rw [netHeat_eval] at h2
    have h4 : ki.aIn 0 = 1 := by simpa [Coef.eval] using h1
    simp [netHeat, fluidHeat, diagA, h4, Pipe.fluidA, wallPipe, mBore, hfd, htd]

/-! ### C54: reversed flow -/

/-- Specification: the connectivity list with all connections reversed. -/
def reverseConn (n : ℕ) (c : List ℤ) : List ℤ :=
  (List.range n).map fun i : ℕ => match c.findIdx? (· = (i : ℤ)) with
    | some j => (j : ℤ)
    | none => -1

theorem reverseConn_spec {c : List ℤ} (hv : Valid n c) (i j : ℕ) (hi : i < n) :
    (reverseConn n c)[i]? = some (j : ℤ) ↔ c[j]? = some (i : ℤ) := by
  have hget : (reverseConn n c)[i]? = some (match c.findIdx? (· = (i : ℤ)) with
    | some j => (j : ℤ)
    | none => -1) := by
    simp [reverseConn, hi]
  rw [hget]
  cases hk : c.findIdx? (· = (i : ℤ)) with
  | none =>
    rw [List.findIdx?_eq_none_iff] at hk
    simp only [Option.some.injEq]
    constructor
    · intro h; omega
    · intro h
      have := hk _ (List.mem_of_getElem? h)
      simp at this
  | some k =>
    rw [List.findIdx?_eq_some_iff_getElem] at hk
    obtain ⟨hlt, hp, -⟩ := hk
    simp only [decide_eq_true_eq] at hp
    have hck : c[k]? = some (i : ℤ) := by rw [List.getElem?_eq_getElem hlt, hp]
    simp only [Option.some.injEq, Nat.cast_inj]
    constructor
    · rintro rfl; exact hck
    · intro h
      by_contra hne
      have hj : j < n := hv.len ▸ (List.getElem?_eq_some_iff.mp h).1
      have := hv.inj k j (hv.len ▸ hlt) hj hne (by rw [hck, h])
      rw [hck] at this
      simp only [Option.some.injEq] at this
      omega

theorem reach_of_rank {c : List ℤ} (hlen : c.length = n)
    (hent : ∀ v ∈ c, v = -1 ∨ ∃ j : ℕ, j < n ∧ v = j) (rank : ℕ → ℕ)
    (hrank : ∀ i j : ℕ, i < n → j < n → c[i]? = some (j : ℤ) → rank j < rank i) :
    ∀ i < n, ∃ d r, Up c d i r := by
  have key : ∀ m i, i < n → rank i < m → ∃ d r, Up c d i r := by
    intro m
    induction m with
    | zero => intro i _ h; omega
    | succ m ih =>
      intro i hi hm
      have hget : c[i]? = some c[i] := List.getElem?_eq_getElem (by omega)
      rcases hent _ (List.getElem_mem (by omega : i < c.length)) with h | ⟨j, hj, h⟩
      · exact ⟨0, i, Up.inlet i (by rw [hget, h])⟩
      · have hij : c[i]? = some (j : ℤ) := by rw [hget, h]
        have := hrank i j hi hj hij
        obtain ⟨d, r, hu⟩ := ih j hj (by omega)
        exact ⟨d + 1, r, Up.step d i j r hij hu⟩
  exact fun i hi => key (rank i + 1) i hi (Nat.lt_succ_self _)

theorem reverseConn_valid {c : List ℤ} (hv : Valid n c) : Valid n (reverseConn n c) := by
  have hlen : (reverseConn n c).length = n := by simp [reverseConn]
  have hent : ∀ v ∈ reverseConn n c, v = -1 ∨ ∃ j : ℕ, j < n ∧ v = j := by
    intro v hmem
    obtain ⟨i, hi, rfl⟩ := List.mem_map.mp hmem
    cases hk : c.findIdx? (· = (i : ℤ)) with
    | none => left; simp
    | some k =>
      right
      rw [List.findIdx?_eq_some_iff_getElem] at hk
      exact ⟨k, hv.len ▸ hk.1, by simp⟩
  refine ⟨hv.pos, hlen, hent, ?_, ?_⟩
  · intro i j hi hj hij heq
    have hget : (reverseConn n c)[i]? = some (reverseConn n c)[i] := List.getElem?_eq_getElem (by omega)
    rcases hent _ (List.getElem_mem (by omega : i < (reverseConn n c).length)) with h | ⟨k, hk, h⟩
    · rw [hget, h]
    · exfalso
      rw [h] at hget
      have h1 := (reverseConn_spec hv i k hi).mp hget
      have h2 := (reverseConn_spec hv j k hj).mp (by rw [← heq, hget])
      rw [h1] at h2
      simp only [Option.some.injEq, Nat.cast_inj] at h2
      exact hij h2
  · have hex : ∀ i, i < n → ∃ d r, Up c d i r := hv.reach
    choose! d r hd using hex
    apply reach_of_rank hlen hent (fun i => n - d i)
    intro i j hi hj hij
    have h1 := (reverseConn_spec hv i j hi).mp hij
    have h2 := ((hd j hj).det (Up.step (d i) j i (r i) h1 (hd i hi))).1
    have h3 := (hd j hj).depth_lt
    rw [hv.len] at h3
    show n - d j < n - d i
    omega

/-- **C54.**  The network with all connections reversed is accepted, its inlets are the outlets of
the original network and conversely, and with the flow in the positive direction it has the
coefficients of the original network with the flow in the negative direction, if the
boreholes have the same coefficients. -/
theorem reversed_flow (h : construct n conn = .ok t) :
    ∃ t', construct n (some (reverseConn n t.c)) = .ok t' ∧ t'.iInlets = t.iOutlets ∧ t'.iOutlets = t.iInlets ∧
      ∀ (p p' : (i : Fin n) → Pipe (ns i)) (f f' : Formatted), f.rev = true → f'.rev = false →
        boreA t p f = boreA t' p' f' → boreB t p f = boreB t' p' f' →
        netInlet t p f = netInlet t' p' f' ∧ netOutlet t p f = netOutlet t' p' f' := by
  obtain ⟨-, -, hv, hin, hout, -⟩ := construct_ok h
  have hv' := reverseConn_valid hv
  obtain ⟨t', ht'⟩ := (construct_accepts_iff n _).mpr hv'
  obtain ⟨-, hc', -, hin', hout', -⟩ := construct_ok ht'
  simp only [Option.getD_some] at hc'
  have hI : t'.iInlets = t.iOutlets := by
    rw [hin', hout, hc', inletList, outletList]
    apply List.filter_congr
    intro i hi
    rw [List.mem_range] at hi
    rw [decide_eq_decide]
    have hlt : i < (reverseConn n t.c).length := by rw [hv'.len]; exact hi
    have hget : (reverseConn n t.c)[i]? = some (reverseConn n t.c)[i] := List.getElem?_eq_getElem hlt
    constructor
    · intro h1 h2
      obtain ⟨j, hj, h3⟩ := List.mem_iff_getElem.mp h2
      have := (reverseConn_spec hv i j hi).mpr (by rw [List.getElem?_eq_getElem hj, h3])
      rw [h1] at this
      simp only [Option.some.injEq] at this
      omega
    · intro h1
      rcases hv'.entries _ (List.getElem_mem hlt) with h2 | ⟨j, hj, h2⟩
      · rw [hget, h2]
      · exfalso
        rw [h2] at hget
        exact h1 (List.mem_of_getElem? ((reverseConn_spec hv i j hi).mp hget))
  have hO : t'.iOutlets = t.iInlets := by
    rw [hout', hin, hc', inletList, outletList]
    apply List.filter_congr
    intro i hi
    rw [List.mem_range] at hi
    rw [decide_eq_decide]
    have hlt : i < t.c.length := by rw [hv.len]; exact hi
    have hget : t.c[i]? = some t.c[i] := List.getElem?_eq_getElem hlt
    constructor
    · intro h1
      rcases hv.entries _ (List.getElem_mem hlt) with h2 | ⟨j, hj, h2⟩
      · rw [hget, h2]
      · exfalso
        rw [h2] at hget
        exact h1 (List.mem_of_getElem? ((reverseConn_spec hv j i hj).mpr hget))
    · intro h1 h2
      obtain ⟨j, hj, h3⟩ := List.mem_iff_getElem.mp h2
      have hj' : j < n := by rw [hv'.len] at hj; exact hj
      have := (reverseConn_spec hv j i hj').mp (by rw [List.getElem?_eq_getElem hj, h3])
      rw [h1] at this
      simp only [Option.some.injEq] at this
      omega
  refine ⟨t', ht', hI, hO, ?_⟩
  intro p p' f f' hf hf' hA hB
  have hC : cOut n t f = cOut n t' f' := by
    unfold cOut
    rw [if_pos hf, if_neg (by rw [hf']; simp), hc']
    funext i j
    unfold cOutNeg cOutPos
    exact if_congr (reverseConn_spec hv i j i.2).symm rfl rfl
  have hc : flowInlets t f = flowInlets t' f' := by
    unfold flowInlets
    rw [if_pos hf, if_neg (by rw [hf']; simp), hI]
  unfold netInlet netOutlet
  rw [hC, hc, hA, hB]
  exact ⟨rfl, rfl⟩

end Verif.Net
