import Verif.Pipe.DissProps
import Verif.Net.MirrorNetProps

/-!
# Property C141 (boreholes): reciprocity of the two directions of flow
-/

noncomputable section

namespace Verif.Pipe

open Real Set

/-- A continuous function with the derivative zero inside an interval has equal values at its ends. -/
theorem eq_of_deriv_zero {f : ℝ → ℝ} {a b : ℝ} (hab : a ≤ b) (hc : ContinuousOn f (Icc a b)) (hd : ∀ z ∈ Ioo a b, HasDerivAt f 0 z) : f a = f b := by
  have h1 := le_of_deriv_nonneg (f' := fun _ => 0) hab hc hd fun _ _ => le_rfl
  have h2 := le_of_deriv_nonneg (f := fun z => -f z) (f' := fun _ => 0) hab hc.neg (fun z hz => (hd z hz).neg.congr_deriv neg_zero) fun _ _ => le_rfl
  linarith

namespace UPar

/-- The exchange between two solutions with opposite flow through the same two pipes. -/
theorem mirrored {p p' : UPar} (h1 : p'.b1 = p.b2) (h2 : p'.b2 = p.b1) (h12 : p'.b12 = p.b12) (hH : p'.H = p.H) {zu : ℕ → ℝ} {n : ℕ} (hz : Edges zu n p.H)
    {Tin Sin : ℝ} {Tb Sb : ℕ → ℝ} {d u d' u' : ℝ → ℝ} (h : Solution p zu n Tin Tb d u) (h' : Solution p' zu n Sin Sb d' u') :
    ∑ v ∈ Finset.range n, Sb v * ((d (zu (v + 1)) - d (zu v)) - (u (zu (v + 1)) - u (zu v)))
      - ∑ v ∈ Finset.range n, Tb v * ((d' (zu (v + 1)) - d' (zu v)) - (u' (zu (v + 1)) - u' (zu v))) = u 0 * Sin - Tin * u' 0 := by
  have seg : ∀ v < n, Sb v * ((d (zu (v + 1)) - d (zu v)) - (u (zu (v + 1)) - u (zu v))) - Tb v * ((d' (zu (v + 1)) - d' (zu v)) - (u' (zu (v + 1)) - u' (zu v)))
      = (d (zu (v + 1)) * u' (zu (v + 1)) - u (zu (v + 1)) * d' (zu (v + 1))) - (d (zu v) * u' (zu v) - u (zu v) * d' (zu v)) := fun v hv => by
    have hle : zu v ≤ zu (v + 1) := hz.mono v (v + 1) (by omega) (by omega)
    have c1 := h.contDown.mono (hz.sub hv)
    have c2 := h.contUp.mono (hz.sub hv)
    have c3 := (hH ▸ h'.contDown).mono (hz.sub hv)
    have c4 := (hH ▸ h'.contUp).mono (hz.sub hv)
    have := eq_of_deriv_zero (f := fun z => Sb v * (d z - u z) - Tb v * (d' z - u' z) - (d z * u' z - u z * d' z)) hle (by fun_prop)
      (fun z hzv => by
        have e1 := h.down v hv z hzv
        have e2 := h.up v hv z hzv
        have e3 := h'.down v hv z hzv
        have e4 := h'.up v hv z hzv
        rw [h1, h12] at e3
        rw [h2, h12] at e4
        refine ((((e1.sub e2).const_mul (Sb v)).sub ((e3.sub e4).const_mul (Tb v))).sub ((e1.mul e4).sub (e2.mul e3))).congr_deriv ?_
        ring)
    linarith
  rw [← Finset.sum_sub_distrib, Finset.sum_congr rfl fun v hv => seg v (Finset.mem_range.mp hv), Finset.sum_range_sub (fun v => d (zu v) * u' (zu v) - u (zu v) * d' (zu v)),
    hz.zero, hz.last, h.bottom, h.inlet, h'.inlet]
  have hb := h'.bottom
  rw [hH] at hb
  rw [hb]
  ring

end UPar

namespace UTube

variable {t : UTube} (hv : t.Valid) {m cp : ℝ} (hm : m ≠ 0) (hc : 0 < cp) {zu : ℕ → ℝ} {n : ℕ} (hz : Edges zu n t.H)

theorem reversed_neg (hm : m ≠ 0) (hr : t.reversible = true) : t.isReversed (-m) = !t.isReversed m := by
  unfold isReversed
  rcases lt_or_gt_of_ne hm with h | h
  · simp [h, hr, h.le]
  · simp [h, hr, h.le]

include hv hm hc hz in
/-- **C141** (single U-tube and coaxial boreholes).  Two experiments with opposite flow through a reversible borehole: the heat extracted in each, weighted by the wall temperatures
of the other, differ by the exchange at the inlet and the outlet. -/
theorem reciprocal (hr : t.reversible = true) (Tin Sin : ℝ) (Tb Sb : ℕ → ℝ) :
    ∑ v ∈ Finset.range n, Sb v * t.segmentHeat zu n m cp Tin Tb v - ∑ v ∈ Finset.range n, Tb v * t.segmentHeat zu n (-m) cp Sin Sb v
      = |m| * cp * (t.outletT zu n m cp Tin Tb * Sin - Tin * t.outletT zu n (-m) cp Sin Sb) := by
  have hz' : Edges zu n (t.par m cp).H := hz
  have hz'' : Edges zu n (t.par (-m) cp).H := hz
  obtain ⟨sol, hout⟩ := UPar.profile_solves (par_passive hv hm hc) hz' Tin Tb
  obtain ⟨sol', hout'⟩ := UPar.profile_solves (par_passive hv (neg_ne_zero.mpr hm) hc) hz'' Sin Sb
  have hn := reversed_neg hm hr
  have key := UPar.mirrored (p := t.par m cp) (p' := t.par (-m) cp) (by unfold par iInlet iOutlet; rw [hn, abs_neg]; cases t.isReversed m <;> simp)
    (by unfold par iInlet iOutlet; rw [hn, abs_neg]; cases t.isReversed m <;> simp)
    (by unfold par iInlet iOutlet; rw [hn, abs_neg]; cases t.isReversed m <;> simp [hv.symm]) rfl hz' sol sol'
  rw [hout, hout'] at key
  have e : ∀ v, t.segmentHeat zu n m cp Tin Tb v = |m| * cp *
      (((t.par m cp).downT zu n Tin Tb (zu (v + 1)) - (t.par m cp).downT zu n Tin Tb (zu v)) - ((t.par m cp).upT zu n Tin Tb (zu (v + 1)) - (t.par m cp).upT zu n Tin Tb (zu v))) :=
    fun v => by rw [segmentHeat_profiles, sgn_eq_abs (Or.inr hr)]
  have e' : ∀ v, t.segmentHeat zu n (-m) cp Sin Sb v = |m| * cp *
      (((t.par (-m) cp).downT zu n Sin Sb (zu (v + 1)) - (t.par (-m) cp).downT zu n Sin Sb (zu v))
        - ((t.par (-m) cp).upT zu n Sin Sb (zu (v + 1)) - (t.par (-m) cp).upT zu n Sin Sb (zu v))) :=
    fun v => by rw [segmentHeat_profiles, sgn_eq_abs (Or.inr hr), abs_neg]
  unfold outletT
  rw [← key, mul_sub, Finset.mul_sum, Finset.mul_sum]
  congr 1
  · exact Finset.sum_congr rfl fun v _ => by rw [e]; ring
  · exact Finset.sum_congr rfl fun v _ => by rw [e']; ring

include hv hm hc hz in
/-- **C141** (as part of a network). -/
theorem netPipe_mirrored (hr : t.reversible = true) : (t.netPipe zu n).Mirrored m cp := fun Tin Sin Tb Sb => by
  simp only [netPipe_heat, netPipe_out]
  rw [← reciprocal hv hm hc hz hr Tin Sin (pad n Tb) (pad n Sb), ← Fin.sum_univ_eq_sum_range (fun v => pad n Sb v * t.segmentHeat zu n m cp Tin (pad n Tb) v),
    ← Fin.sum_univ_eq_sum_range (fun v => pad n Tb v * t.segmentHeat zu n (-m) cp Sin (pad n Sb) v)]
  simp only [pad_val]

/-- The coefficient between the inlet and the outlet is the same in both directions. -/
theorem outA_flip (hs : t.G 0 1 = t.G 1 0) (m cp : ℝ) : (t.par (-m) cp).outA = (t.par m cp).outA := by
  have h1 : (t.par (-m) cp).b1 + (t.par (-m) cp).b2 = (t.par m cp).b1 + (t.par m cp).b2 := by
    unfold par iInlet iOutlet
    rw [abs_neg]
    cases t.isReversed m <;> cases t.isReversed (-m) <;> simp [add_comm]
  have h2 : (t.par (-m) cp).b12 = (t.par m cp).b12 := by
    unfold par iInlet iOutlet
    rw [abs_neg]
    cases t.isReversed m <;> cases t.isReversed (-m) <;> simp [hs]
  have h3 : (t.par (-m) cp).H = (t.par m cp).H := rfl
  unfold UPar.outA UPar.A UPar.B UPar.gamma
  rw [h1, h2, h3]

include hv hm hc in
/-- **C141** (effective resistance of a borehole).  The effective thermal resistance of a reversible borehole does not depend on the direction of the flow. -/
theorem effective_flip (hr : t.reversible = true) : t.effectiveResistance (-m) cp = t.effectiveResistance m cp := by
  unfold effectiveResistance
  rw [heatA_single hv (neg_ne_zero.mpr hm) hc, heatA_single hv hm hc, sgn_eq_abs (Or.inr hr), sgn_eq_abs (Or.inr hr), abs_neg, outA_flip hv.symm]

include hv hm hc hz in
/-- **C141** (equal legs).  When both pipes exchange heat equally well with the wall, the coefficients between the walls and the heat extracted from them are symmetric. -/
theorem heat_symmetric (hr : t.reversible = true) (hl : t.G 0 0 = t.G 1 1) (s s' : Fin n) : (t.netPipe zu n).heatB m cp s s' = (t.netPipe zu n).heatB m cp s' s := by
  have hpar : t.par (-m) cp = t.par m cp := by
    unfold par iInlet iOutlet
    rw [abs_neg]
    cases t.isReversed m <;> cases t.isReversed (-m) <;> simp [hl, hv.symm]
  have hflip : ∀ (Tin : ℝ) (Tb : Fin n → ℝ) (s : Fin n), (t.netPipe zu n).heatA (-m) cp s * Tin + ∑ s', (t.netPipe zu n).heatB (-m) cp s s' * Tb s'
      = (t.netPipe zu n).heatA m cp s * Tin + ∑ s', (t.netPipe zu n).heatB m cp s s' * Tb s' := fun Tin Tb s => by
    rw [netPipe_heat, netPipe_heat, segmentHeat_profiles, segmentHeat_profiles, sgn_eq_abs (Or.inr hr), sgn_eq_abs (Or.inr hr), abs_neg, hpar]
  have e := netPipe_mirrored hv hm hc hz hr 0 0 (Pi.single s' 1) (Pi.single s 1)
  simp only [hflip] at e
  simpa [Pi.single_apply, sub_eq_zero] using e

end UTube

namespace Multi

open Matrix

variable {n k : ℕ}

/-- The flows of a symmetric circuit are reciprocal. -/
theorem flux_reciprocal (Rd : Matrix (P n) (P n) ℝ) (hs : Rd.IsSymm) (T S : P n → ℝ) (Tw Sw : ℝ) :
    ∑ i, (Sw - S i) * pipeFlux Rd T Tw i = ∑ i, (Tw - T i) * pipeFlux Rd S Sw i := by
  have h : ∀ (x y : P n → ℝ) (a b : ℝ), ∑ i, (b - y i) * pipeFlux Rd x a i
      = ∑ i, (b - y i) * (a - x i) / Rd i i + (∑ i, ∑ j, (b - y i) * (a - x i) / Rd i j - ∑ i, ∑ j, (b - y i) * (a - x j) / Rd i j) := fun x y a b => by
    rw [← Finset.sum_sub_distrib, ← Finset.sum_add_distrib]
    refine Finset.sum_congr rfl fun i _ => ?_
    unfold pipeFlux
    have e : ∑ j ∈ Finset.univ.erase i, (x j - x i) / Rd i j = ∑ j, (x j - x i) / Rd i j := by
      rw [← Finset.add_sum_erase _ _ (Finset.mem_univ i)]; simp
    rw [e, ← Finset.sum_sub_distrib, mul_add, Finset.mul_sum]
    congr 1
    · ring
    · exact Finset.sum_congr rfl fun j _ => by ring
  rw [h, h]
  congr 1
  · exact Finset.sum_congr rfl fun i _ => by ring
  · congr 1
    · exact Finset.sum_congr rfl fun i _ => Finset.sum_congr rfl fun j _ => by ring
    · rw [Finset.sum_comm]
      refine Finset.sum_congr rfl fun i _ => Finset.sum_congr rfl fun j _ => ?_
      rw [hs.apply j i]
      ring

/-- The head of the borehole with opposite flows. -/
theorem head_mirrored (c : Config) (hn : 0 < n) (rev : Bool) (Tin Tout Sin Sout q : ℝ) (d u d' u' : Fin n → ℝ) (h : HeadSpec c n rev Tin Tout d u)
    (h' : HeadSpec c n (!rev) Sin Sout d' u') : ∑ i, pipeFlow c n q * (u i * d' i - d i * u' i) = |q| * (Tout * Sin - Tin * Sout) := by
  have hn' : (n : ℝ) ≠ 0 := by exact_mod_cast hn.ne'
  cases c with
  | parallel =>
    obtain ⟨h1, h2⟩ : (∀ i, d i = Tin) ∧ n * Tout = ∑ i, u i := by cases rev <;> exact h
    obtain ⟨h3, h4⟩ : (∀ i, d' i = Sin) ∧ n * Sout = ∑ i, u' i := by cases rev <;> exact h'
    simp only [pipeFlow, h1, h3]
    rw [← Finset.mul_sum, Finset.sum_sub_distrib, ← Finset.sum_mul, ← Finset.mul_sum, ← h2, ← h4]
    field_simp
  | series =>
    obtain ⟨p, rfl⟩ : ∃ p, n = p + 1 := ⟨n - 1, by omega⟩
    simp only [pipeFlow]
    rw [← Finset.mul_sum, Finset.sum_sub_distrib]
    congr 1
    cases rev
    · obtain ⟨h1, h2, h3⟩ := h
      obtain ⟨h4, h5, h6⟩ := h'
      rw [Fin.sum_univ_castSucc, Fin.sum_univ_succ (f := fun i => d i * u' i), h1 0 rfl, ← h3 (Fin.last p) (by simp), h4 (Fin.last p) (by simp), ← h6 0 rfl]
      rw [Finset.sum_congr rfl fun (i : Fin p) _ => show d i.succ * u' i.succ = u i.castSucc * d' i.castSucc by
        rw [h2 i.castSucc i.succ (by simp), h5 i.castSucc i.succ (by simp)]]
      ring
    · obtain ⟨h1, h2, h3⟩ := h
      obtain ⟨h4, h5, h6⟩ := h'
      rw [Fin.sum_univ_succ, Fin.sum_univ_castSucc (f := fun i => d i * u' i), h1 (Fin.last p) (by simp), ← h3 0 rfl, h4 0 rfl, ← h6 (Fin.last p) (by simp)]
      rw [Finset.sum_congr rfl fun (i : Fin p) _ => show d i.castSucc * u' i.castSucc = u i.succ * d' i.succ by
        rw [h2 i.castSucc i.succ (by simp), h5 i.castSucc i.succ (by simp)]]
      ring

variable {ni no : ℕ} {c c' : Conn n ni no} {Rd : Matrix (P n) (P n) ℝ} {zu : ℕ → ℝ} {H : ℝ} {Tin Sin : Fin ni → ℝ} {Tb Sb : Fin k → ℝ} {T S : ℝ → P n → ℝ}
  {Tout Sout : Fin no → ℝ}

/-- The exchange over the whole borehole between two solutions with opposite flow in each pipe. -/
theorem bore_mirrored (hs : Rd.IsSymm) (hm : ∀ i, c.mcp i ≠ 0) (hmm : ∀ i, c'.mcp i = -c.mcp i) (hz : Edges zu k H) (h : Sol c Rd zu H Tin Tb T Tout)
    (h' : Sol c' Rd zu H Sin Sb S Sout) {rev : Fin n → Bool} {w : Fin n → ℝ} (ha : Aligned c rev w) :
    ∑ v : Fin k, Sb v * ∑ i, c.mcp i * (T (zu (v + 1)) i - T (zu v) i) - ∑ v : Fin k, Tb v * ∑ i, c'.mcp i * (S (zu (v + 1)) i - S (zu v) i)
      = ∑ i, w i * (T 0 (upPipe rev i) * S 0 (upPipe rev i) - T 0 (downPipe rev i) * S 0 (downPipe rev i)) := by
  have seg : ∀ v : Fin k, Sb v * ∑ i, c.mcp i * (T (zu (v + 1)) i - T (zu v) i) - Tb v * ∑ i, c'.mcp i * (S (zu (v + 1)) i - S (zu v) i)
      = ∑ i, c.mcp i * (T (zu (v + 1)) i * S (zu (v + 1)) i) - ∑ i, c.mcp i * (T (zu v) i * S (zu v) i) := fun v => by
    have hle : zu v ≤ zu (v + 1) := hz.mono v (v + 1) (by omega) v.2
    have hcont : ∀ i, ContinuousOn (fun z => T z i) (Icc (zu v) (zu (v + 1))) := fun i => (h.cont i).mono (hz.sub v.2)
    have hcont' : ∀ i, ContinuousOn (fun z => S z i) (Icc (zu v) (zu (v + 1))) := fun i => (h'.cont i).mono (hz.sub v.2)
    obtain ⟨F, hF⟩ : ∃ F : ℝ → ℝ, F = fun z => ∑ i, c.mcp i * (Sb v * T z i + Tb v * S z i - T z i * S z i) := ⟨_, rfl⟩
    have hFc : ContinuousOn F (Icc (zu v) (zu (v + 1))) := by
      rw [hF]
      exact continuousOn_finsetSum _ fun i _ => continuousOn_const.mul
        (((continuousOn_const.mul (hcont i)).add (continuousOn_const.mul (hcont' i))).sub ((hcont i).mul (hcont' i)))
    have hFd : ∀ z ∈ Ioo (zu v) (zu (v + 1)), HasDerivAt F 0 z := fun z hzv => by
      have d : HasDerivAt F (∑ i, ((Sb v - S z i) * pipeFlux Rd (T z) (Tb v) i - (Tb v - T z i) * pipeFlux Rd (S z) (Sb v) i)) z := by
        rw [hF]
        refine HasDerivAt.fun_sum fun i _ => ?_
        have e1 := h.ode v z hzv i
        have e2 := h'.ode v z hzv i
        rw [hmm i] at e2
        refine ((((e1.const_mul (Sb v)).add (e2.const_mul (Tb v))).sub (e1.mul e2)).const_mul (c.mcp i)).congr_deriv ?_
        have := hm i
        field_simp
        ring
      refine d.congr_deriv ?_
      rw [Finset.sum_sub_distrib, flux_reciprocal Rd hs, sub_self]
    have e := eq_of_deriv_zero hle hFc hFd
    rw [hF] at e
    simp only [hmm]
    have e2 : ∀ z, ∑ i, c.mcp i * (Sb v * T z i + Tb v * S z i - T z i * S z i)
        = Sb v * ∑ i, c.mcp i * T z i + Tb v * ∑ i, c.mcp i * S z i - ∑ i, c.mcp i * (T z i * S z i) := fun z => by
      rw [Finset.mul_sum, Finset.mul_sum, ← Finset.sum_add_distrib, ← Finset.sum_sub_distrib]
      exact Finset.sum_congr rfl fun i _ => by ring
    simp only [e2] at e
    simp only [neg_mul, mul_sub, Finset.sum_sub_distrib, Finset.sum_neg_distrib]
    linarith
  rw [← Finset.sum_sub_distrib, Finset.sum_congr rfl fun v _ => seg v,
    Fin.sum_univ_eq_sum_range (fun v => ∑ i, c.mcp i * (T (zu (v + 1)) i * S (zu (v + 1)) i) - ∑ i, c.mcp i * (T (zu v) i * S (zu v) i)) k,
    Finset.sum_range_sub (fun v => ∑ i, c.mcp i * (T (zu v) i * S (zu v) i)), hz.zero, hz.last, sum_pipes rev, sum_pipes rev, ← Finset.sum_sub_distrib]
  refine Finset.sum_congr rfl fun i _ => ?_
  rw [ha.down, ha.up, bottom_pipes rev (T H) h.bottom i, bottom_pipes rev (S H) h'.bottom i]
  ring

end Multi

namespace Multi

open Matrix

variable {n k : ℕ} {Rd : Matrix (P n) (P n) ℝ} {c : Config} {m cp : ℝ}

/-- The temperatures and the heat of a borehole with several U-tubes, for one flow rate. -/
theorem multiple_solution (hR : Circuit Rd) {reversible : Bool} (hf : Flowing n reversible m cp) {e : Eig n} (he : e.Of (odeA Rd (multiple c n reversible m cp).mcp))
    {zu : ℕ → ℝ} {H : ℝ} (hH : 0 < H) (hz : Edges zu k H) {p : Net.Pipe k} (hp : Represents (mkBore k (multiple c n reversible m cp) Rd e zu H) zu p m cp)
    (Tin : ℝ) (Tb : Fin k → ℝ) :
    ∃ T : ℝ → P n → ℝ, Sol (multiple c n reversible m cp) Rd zu H (fun _ => Tin) Tb T (fun _ => p.outA m cp * Tin + ∑ s, p.outB m cp s * Tb s) ∧
      ∀ v : Fin k, p.heatA m cp v * Tin + ∑ s, p.heatB m cp v s * Tb s = ∑ i, (multiple c n reversible m cp).mcp i * (T (zu (v + 1)) i - T (zu v) i) := by
  obtain ⟨S, hS⟩ := multiple_regular (k := k) (zu := zu) hR hf he hH
  have hL := multiple_eig_ne hR hf he
  have hsol := mk_solves he hL hz hS (fun _ => Tin) Tb
  obtain ⟨T, hT⟩ : ∃ T : ℝ → P n → ℝ, T = fun z => (mkBore k (multiple c n reversible m cp) Rd e zu H).f0 z *ᵥ (mkBore k (multiple c n reversible m cp) Rd e zu H).T0 S (fun _ => Tin) Tb
      + (mkBore k (multiple c n reversible m cp) Rd e zu H).fb z *ᵥ Tb := ⟨_, rfl⟩
  rw [← hT] at hsol
  have ho := represents_outlet hp Tin Tb
  rw [Bore.outlet_form _ hS, Option.some.injEq] at ho
  have ho' : (multiple c n reversible m cp).dfu *ᵥ (mkBore k (multiple c n reversible m cp) Rd e zu H).X S (fun _ => Tin) Tb
    = fun _ => p.outA m cp * Tin + ∑ s, p.outB m cp s * Tb s := ho
  rw [ho'] at hsol
  refine ⟨T, hsol, fun v => ?_⟩
  have h1 := represents_segment hp Tin Tb v
  rw [segmentHeat_form _ hS, Option.some.injEq] at h1
  rw [← h1, hT]
  rfl

/-- **C141** (several U-tubes).  The same for reversible boreholes with any number of U-tubes in parallel or in series. -/
theorem multiple_mirrored (hR : Circuit Rd) (hf : Flowing n true m cp) {e e' : Eig n} (he : e.Of (odeA Rd (multiple c n true m cp).mcp))
    (he' : e'.Of (odeA Rd (multiple c n true (-m) cp).mcp)) {zu : ℕ → ℝ} {H : ℝ} (hH : 0 < H) (hz : Edges zu k H) {p : Net.Pipe k}
    (hp : Represents (mkBore k (multiple c n true m cp) Rd e zu H) zu p m cp)
    (hp' : Represents (mkBore k (multiple c n true (-m) cp) Rd e' zu H) zu p (-m) cp) : p.Mirrored m cp := fun Tin Sin Tb Sb => by
  have hf' : Flowing n true (-m) cp := ⟨hf.hn, neg_ne_zero.mpr hf.hm, hf.hcp, Or.inr rfl⟩
  obtain ⟨T, hT, hq⟩ := multiple_solution hR hf he hH hz hp Tin Tb
  obtain ⟨S, hS, hq'⟩ := multiple_solution hR hf' he' hH hz hp' Sin Sb
  have ha := multiple_aligned (n := n) c hf.hm hf.dir cp
  have hw : 0 < pipeFlow c n m * cp := mul_pos (pipeFlow_pos c hf.hn hf.hm) hf.hcp
  have hmne := aligned_mcp_ne ha fun _ => hw.ne'
  have hpf : pipeFlow c n (-m) = pipeFlow c n m := by cases c <;> simp [pipeFlow]
  have hmm : ∀ i, (multiple c n true (-m) cp).mcp i = -(multiple c n true m cp).mcp i := fun i => by
    unfold multiple mFlowPipe
    dsimp only
    cases i <;> · dsimp only; rw [hpf, Real.sign_neg]; ring
  have key := bore_mirrored hR.symm hmne hmm hz hT hS ha
  have hrev : reversed true (-m) = !reversed true m := by
    unfold reversed
    rcases lt_or_gt_of_ne hf.hm with h | h
    · simp [h, h.le]
    · simp [h, h.le]
  have h1 := ((sol_iff c hf.hn true hf.hm hf.hcp hf.dir Rd zu H Tin Tb T _).mp hT).head
  have h2 := ((sol_iff c hf.hn true hf'.hm hf.hcp hf'.dir Rd zu H Sin Sb S _).mp hS).head
  rw [hrev] at h2
  have hhead := head_mirrored c hf.hn _ _ _ _ _ m _ _ _ _ h1 h2
  simp only [hq, hq']
  rw [key]
  have e : ∀ i, downPipe (fun _ : Fin n => !reversed true m) i = upPipe (fun _ => reversed true m) i ∧
      upPipe (fun _ : Fin n => !reversed true m) i = downPipe (fun _ => reversed true m) i := fun i => by
    unfold downPipe upPipe
    cases reversed true m <;> simp
  simp only [fun i => (e i).1, fun i => (e i).2] at hhead
  rw [mul_comm |m| cp, mul_assoc, ← hhead, Finset.mul_sum]
  exact Finset.sum_congr rfl fun i _ => by ring

end Multi

namespace UTube

/-- Non-vacuity: two coaxial boreholes in series, of two segments each, with the flow in both directions. -/
example : ∃ (t : Net.Topology) (f : Net.Formatted) (ki ki' : Net.Coef (Fin 2) fun _ => 2), Net.construct 2 (some [-1, 0]) = .ok t ∧ Net.format t [1] [4] = .ok f ∧
    Net.format t [-1] [4] = .ok f.flip ∧ Net.netInlet t (fun _ => (coaxial 0 (1 / 5) (1 / 2) 100 true).netPipe (fun k => 50 * (k : ℝ)) 2) f = some ki ∧
    Net.netInlet t (fun _ => (coaxial 0 (1 / 5) (1 / 2) 100 true).netPipe (fun k => 50 * (k : ℝ)) 2) f.flip = some ki' ∧
    ∀ s s', (Net.boreHeat t (fun _ => (coaxial 0 (1 / 5) (1 / 2) 100 true).netPipe (fun k => 50 * (k : ℝ)) 2) f ki).aB s s'
      = (Net.boreHeat t (fun _ => (coaxial 0 (1 / 5) (1 / 2) 100 true).netPipe (fun k => 50 * (k : ℝ)) 2) f.flip ki').aB s' s := by
  obtain ⟨t, htd⟩ : ∃ t : Net.Topology, t = ⟨2, [-1, 0], 1, 1, [0], [1], [0, 0]⟩ := ⟨_, rfl⟩
  have ht : Net.construct 2 (some [-1, 0]) = .ok t := by rw [htd]; rfl
  obtain ⟨f, hfd⟩ : ∃ f : Net.Formatted, f = ⟨[1], false, 4⟩ := ⟨_, rfl⟩
  have hf : Net.format t [1] [4] = .ok f := by rw [htd, hfd]; simp [Net.format, Net.formatFlow, Net.formatCp]
  obtain ⟨ki, -, hki, -⟩ := Net.network_temperatures ht (fun _ => (coaxial 0 (1 / 5) (1 / 2) 100 true).netPipe (fun k => 50 * (k : ℝ)) 2) f
  obtain ⟨ki', -, hki', -⟩ := Net.network_temperatures ht (fun _ => (coaxial 0 (1 / 5) (1 / 2) 100 true).netPipe (fun k => 50 * (k : ℝ)) 2) f.flip
  have hb : ∀ i : Fin 2, Net.mBore t f i = 1 := fun i => by fin_cases i <;> simp [Net.mBore, htd, hfd]
  refine ⟨t, f, ki, ki', ht, hf, ?_, hki, hki', ?_⟩
  · have := Net.format_flip hf ⟨1, by simp, one_ne_zero⟩
    simpa using this
  · refine (Net.network_transposed ht _ f (fun i => ?_) (by rw [htd, hfd]; rfl) (by rw [hfd]; norm_num) hki hki').1
    rw [hb i]
    exact netPipe_mirrored (coaxial_valid 0 true (by norm_num) (by norm_num) (by norm_num)) one_ne_zero (by rw [hfd]; norm_num)
      ⟨by norm_num, by norm_num, by norm_num [coaxial], fun i j hij _ => by
        have : (i : ℝ) ≤ j := by exact_mod_cast hij
        linarith⟩ rfl

end UTube

end Verif.Pipe
