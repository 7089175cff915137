import Verif.Net.ThermalProps

/-!
# Property C107 (networks): the fluid temperatures of a network stay between the extremes of the inlet and wall temperatures
-/

noncomputable section

namespace Verif.Net

variable {n : ℕ} {ns : Fin n → ℕ}

/-- Specification: the outlet temperature of a borehole is a weighted average of its inlet and wall temperatures. -/
structure Pipe.Weighted {k : ℕ} (p : Pipe k) (m cp : ℝ) : Prop where
  inlet : 0 ≤ p.outA m cp
  walls : ∀ s, 0 ≤ p.outB m cp s
  total : p.outA m cp + ∑ s, p.outB m cp s = 1

theorem Pipe.Weighted.between {k : ℕ} {p : Pipe k} {m cp : ℝ} (h : p.Weighted m cp) {Tin : ℝ} {Tb : Fin k → ℝ} {lo hi : ℝ} (hin : lo ≤ Tin ∧ Tin ≤ hi)
    (hw : ∀ s, lo ≤ Tb s ∧ Tb s ≤ hi) : lo ≤ p.outA m cp * Tin + ∑ s, p.outB m cp s * Tb s ∧ p.outA m cp * Tin + ∑ s, p.outB m cp s * Tb s ≤ hi := by
  have e : ∀ v : ℝ, v = p.outA m cp * v + ∑ s, p.outB m cp s * v := fun v => by rw [← Finset.sum_mul, ← add_mul, h.total, one_mul]
  constructor
  · rw [e lo]
    exact add_le_add (mul_le_mul_of_nonneg_left hin.1 h.inlet) (Finset.sum_le_sum fun s _ => mul_le_mul_of_nonneg_left (hw s).1 (h.walls s))
  · rw [e hi]
    exact add_le_add (mul_le_mul_of_nonneg_left hin.2 h.inlet) (Finset.sum_le_sum fun s _ => mul_le_mul_of_nonneg_left (hw s).2 (h.walls s))

variable {conn : Option (List ℤ)} {t : Topology}

/-- **C107** (networks).  The inlet and outlet temperatures of all the boreholes lie between the extremes of the inlet temperature of the network and the wall temperatures. -/
theorem network_between (h : construct n conn = .ok t) (p : (i : Fin n) → Pipe (ns i)) (f : Formatted) (hp : ∀ i, (p i).Weighted (mBore t f i) f.cp)
    {ki ko : Coef (Fin n) ns} (hki : netInlet t p f = some ki) (hko : netOutlet t p f = some ko) {Tin : ℝ} {Tb : SegIdx ns → ℝ} {lo hi : ℝ}
    (hin : lo ≤ Tin ∧ Tin ≤ hi) (hw : ∀ s, lo ≤ Tb s ∧ Tb s ≤ hi) (i : Fin n) :
    (lo ≤ ki.eval Tin Tb i ∧ ki.eval Tin Tb i ≤ hi) ∧ (lo ≤ ko.eval Tin Tb i ∧ ko.eval Tin Tb i ≤ hi) := by
  obtain ⟨ki', ko', h1, h2, hs⟩ := network_temperatures h p f
  rw [hki, Option.some.injEq] at h1
  rw [hko, Option.some.injEq] at h2
  subst h1 h2
  obtain ⟨hsol, -⟩ := hs Tin Tb
  obtain ⟨rank, hrank⟩ := fedBy_rank h f
  obtain ⟨r, hr⟩ : ∃ r, rank i = r := ⟨_, rfl⟩
  induction r using Nat.strong_induction_on generalizing i with
  | _ r ih =>
    have hx : lo ≤ ki.eval Tin Tb i ∧ ki.eval Tin Tb i ≤ hi := by
      by_cases hf : ∃ j : Fin n, FedBy t f i j
      · obtain ⟨j, hj⟩ := hf
        rw [hsol.fed i j hj]
        exact (ih (rank j) (by rw [← hr]; exact hrank i j hj) j rfl).2
      · push Not at hf
        rw [hsol.inlet i hf]; exact hin
    refine ⟨hx, ?_⟩
    rw [hsol.model i]
    exact (hp i).between hx fun s => hw ⟨i, s⟩

/-- The weights of the mixing of the outlets are those of an average. -/
theorem mixing_average (h : construct n conn = .ok t) (f : Formatted) (hlen : f.mIn.length = t.nInlets) (hS : (f.mIn.map abs).sum ≠ 0) :
    (∀ i, 0 ≤ mixing (flowOutlets t f) f.mIn i) ∧ ∑ i : Fin n, mixing (flowOutlets t f) f.mIn i = 1 := by
  have hS0 : 0 ≤ (f.mIn.map abs).sum := List.sum_nonneg fun a ha => by
    obtain ⟨b, -, rfl⟩ := List.mem_map.mp ha
    exact abs_nonneg b
  have hlen' : (flowOutlets t f).length = f.mIn.length := by
    obtain ⟨h1, h2, h3, -⟩ := circuits_decompose n conn t h
    unfold flowOutlets
    split_ifs <;> omega
  obtain ⟨-, hnd, -, hlt⟩ := lists_ok h f
  have hget : ∀ k (hk : k < (flowOutlets t f).length), mixing (flowOutlets t f) f.mIn (flowOutlets t f)[k] = |f.mIn[k]'(by omega)| / (f.mIn.map abs).sum := fun k hk => by
    unfold mixing
    have : (flowOutlets t f).findIdx? (· = (flowOutlets t f)[k]) = some k := by
      rw [List.findIdx?_eq_some_iff_getElem]
      refine ⟨hk, by simp, fun j hj => ?_⟩
      simp only [decide_eq_true_eq]
      intro he
      have := (hnd.getElem_inj_iff (hi := hj.trans hk) (hj := hk)).mp he
      omega
    rw [this]
    simp only
    rw [List.getD_eq_getElem _ _ (by omega)]
  have hout : ∀ i, i ∉ flowOutlets t f → mixing (flowOutlets t f) f.mIn i = 0 := fun i hi => by
    unfold mixing
    have : (flowOutlets t f).findIdx? (· = i) = none := by
      rw [List.findIdx?_eq_none_iff]
      intro x hx
      simp only [decide_eq_false_iff_not]
      rintro rfl
      exact hi hx
    rw [this]
  refine ⟨fun i => ?_, ?_⟩
  · unfold mixing
    split
    · exact div_nonneg (abs_nonneg _) hS0
    · exact le_rfl
  · have : ∀ i : Fin n, mixing (flowOutlets t f) f.mIn i = if (i : ℕ) ∈ flowOutlets t f then mixing (flowOutlets t f) f.mIn i else 0 := fun i => by
      split_ifs with hi
      · rfl
      · exact hout i hi
    rw [Finset.sum_congr rfl fun i _ => this i, sum_list (flowOutlets t f) hnd hlt (mixing (flowOutlets t f) f.mIn)]
    have hmap : (flowOutlets t f).map (mixing (flowOutlets t f) f.mIn) = (f.mIn.map abs).map fun a => a / (f.mIn.map abs).sum := by
      apply List.ext_getElem
      · simp [hlen']
      · intro k h1 h2
        rw [List.length_map] at h1
        rw [List.getElem_map, hget k h1, List.getElem_map, List.getElem_map]
    rw [hmap, sum_map_div, div_self hS]

/-- **C107** (networks, mixed outlet).  So does the outlet temperature of the network. -/
theorem network_outlet_between (h : construct n conn = .ok t) (p : (i : Fin n) → Pipe (ns i)) {m cp : List ℝ} {f : Formatted} (hf : format t m cp = .ok f)
    (hS : (f.mIn.map abs).sum ≠ 0) (hp : ∀ i, (p i).Weighted (mBore t f i) f.cp) {ko : Coef (Fin n) ns} (hko : netOutlet t p f = some ko) {Tin : ℝ} {Tb : SegIdx ns → ℝ} {lo hi : ℝ}
    (hin : lo ≤ Tin ∧ Tin ≤ hi) (hw : ∀ s, lo ≤ Tb s ∧ Tb s ≤ hi) :
    lo ≤ (netMixed (mixing (flowOutlets t f) f.mIn) ko).eval Tin Tb () ∧ (netMixed (mixing (flowOutlets t f) f.mIn) ko).eval Tin Tb () ≤ hi := by
  obtain ⟨ki, ko', hki, h2, -⟩ := network_temperatures h p f
  obtain ⟨w0, w1⟩ := mixing_average h f (format_ok hf).1 hS
  have hb := fun i => (network_between h p f hp hki hko hin hw i).2
  rw [mixed_eval]
  have e : ∀ v : ℝ, v = ∑ i : Fin n, mixing (flowOutlets t f) f.mIn i * v := fun v => by rw [← Finset.sum_mul, w1, one_mul]
  constructor
  · rw [e lo]
    exact Finset.sum_le_sum fun i _ => mul_le_mul_of_nonneg_left (hb i).1 (w0 i)
  · rw [e hi]
    exact Finset.sum_le_sum fun i _ => mul_le_mul_of_nonneg_left (hb i).2 (w0 i)

theorem Coef.eval_sub {ι : Type*} (k : Coef ι ns) (a b : ℝ) (u v : SegIdx ns → ℝ) : k.eval (a - b) (u - v) = k.eval a u - k.eval b v := by
  funext i
  simp only [Coef.eval, Matrix.mulVec_sub, Pi.sub_apply]
  ring

/-- **C107** (networks, order).  A warmer inlet or warmer walls never make the fluid cooler anywhere in the network. -/
theorem network_monotone (h : construct n conn = .ok t) (p : (i : Fin n) → Pipe (ns i)) (f : Formatted) (hp : ∀ i, (p i).Weighted (mBore t f i) f.cp)
    {ki ko : Coef (Fin n) ns} (hki : netInlet t p f = some ki) (hko : netOutlet t p f = some ko) {Tin Tin' : ℝ} {Tb Tb' : SegIdx ns → ℝ} (hin : Tin ≤ Tin') (hw : Tb ≤ Tb') (i : Fin n) :
    ki.eval Tin Tb i ≤ ki.eval Tin' Tb' i ∧ ko.eval Tin Tb i ≤ ko.eval Tin' Tb' i := by
  obtain ⟨hi, hhi⟩ : ∃ hi : ℝ, Tin' - Tin ≤ hi ∧ ∀ s, (Tb' - Tb) s ≤ hi := by
    refine ⟨Tin' - Tin + ∑ s, (Tb' - Tb) s, ?_, fun s => ?_⟩
    · have := Finset.sum_nonneg fun s (_ : s ∈ Finset.univ) => sub_nonneg.mpr (hw s)
      have e : ∑ s, (Tb' - Tb) s = ∑ s, (Tb' s - Tb s) := rfl
      linarith
    · have := Finset.single_le_sum (f := fun s => (Tb' - Tb) s) (fun s _ => sub_nonneg.mpr (hw s)) (Finset.mem_univ s)
      linarith
  have := network_between h p f hp hki hko (Tin := Tin' - Tin) (Tb := Tb' - Tb) (lo := 0) (hi := hi) ⟨by linarith, hhi.1⟩ (fun s => ⟨sub_nonneg.mpr (hw s), hhi.2 s⟩) i
  rw [Coef.eval_sub, Coef.eval_sub] at this
  simp only [Pi.sub_apply] at this
  constructor <;> linarith [this.1.1, this.2.1]

end Verif.Net
