import Verif.Net.BetweenNetProps
import Verif.Net.ScaleLemmas

/-!
# Property C143 (networks): a faster flow through a network extracts more heat and lowers its effective resistance
-/

noncomputable section

namespace Verif.Net

variable {n : ℕ} {ns : Fin n → ℕ}

/-- Specification of a borehole that gains from a faster flow: with walls at zero, the fluid leaves warmer (or as warm) when the flow rate is `m'` than when it is `m`, and the ratio of the
heat extraction rate to the mean of the inlet and outlet temperatures does not decrease. -/
structure Pipe.Faster {k : ℕ} (p : Pipe k) (m m' cp : ℝ) : Prop where
  nonneg : 0 ≤ p.outA m cp
  heated : p.outA m' cp < 1
  rise : p.outA m cp ≤ p.outA m' cp
  gain : |m| * ((1 - p.outA m cp) / (1 + p.outA m cp)) ≤ |m'| * ((1 - p.outA m' cp) / (1 + p.outA m' cp))

/-- The ratio increases. -/
def Pipe.Gains {k : ℕ} (p : Pipe k) (m m' cp : ℝ) : Prop := |m| * ((1 - p.outA m cp) / (1 + p.outA m cp)) < |m'| * ((1 - p.outA m' cp) / (1 + p.outA m' cp))

theorem ratio_nonneg {a : ℝ} (h0 : 0 ≤ a) (h1 : a ≤ 1) : 0 ≤ (1 - a) / (1 + a) := div_nonneg (by linarith) (by linarith)

theorem ratio_anti {a a' : ℝ} (h0 : 0 ≤ a) (h : a ≤ a') : (1 - a') / (1 + a') ≤ (1 - a) / (1 + a) := by
  rw [div_le_div_iff₀ (by linarith) (by linarith)]
  nlinarith

/-- The ratio of two boreholes in series. -/
theorem ratio_mul {a x : ℝ} (ha : 0 ≤ a) (hx : 0 ≤ x) :
    (1 - a * x) / (1 + a * x) = ((1 - a) / (1 + a) + (1 - x) / (1 + x)) / (1 + (1 - a) / (1 + a) * ((1 - x) / (1 + x))) := by
  have h1 : 1 + a ≠ 0 := by positivity
  have h2 : 1 + x ≠ 0 := by positivity
  have h3 : 1 + a * x ≠ 0 := by positivity
  have h4 : (1 + a) * (1 + x) + (1 - a) * (1 - x) ≠ 0 := by
    have : (1 + a) * (1 + x) + (1 - a) * (1 - x) = 2 * (1 + a * x) := by ring
    rw [this]; positivity
  have h5 : 1 + (1 - a) / (1 + a) * ((1 - x) / (1 + x)) = ((1 + a) * (1 + x) + (1 - a) * (1 - x)) / ((1 + a) * (1 + x)) := by field_simp
  rw [h5, div_add_div _ _ h1 h2, div_div_div_cancel_right₀ (mul_ne_zero h1 h2), div_eq_div_iff h3 h4]
  ring

/-- One more borehole in a series. -/
theorem gain_mul {M M' a a' x x' : ℝ} (hM : 0 ≤ M) (ha : 0 ≤ a) (haa : a ≤ a') (ha1 : a' ≤ 1) (hx : 0 ≤ x) (hxx : x ≤ x') (hx1 : x' ≤ 1)
    (hga : M * ((1 - a) / (1 + a)) ≤ M' * ((1 - a') / (1 + a'))) (hgx : M * ((1 - x) / (1 + x)) ≤ M' * ((1 - x') / (1 + x'))) :
    M * ((1 - a * x) / (1 + a * x)) ≤ M' * ((1 - a' * x') / (1 + a' * x')) ∧
    (M * ((1 - a) / (1 + a)) < M' * ((1 - a') / (1 + a')) → M * ((1 - a * x) / (1 + a * x)) < M' * ((1 - a' * x') / (1 + a' * x'))) := by
  rw [ratio_mul ha hx, ratio_mul (ha.trans haa) (hx.trans hxx)]
  have r1 := ratio_nonneg ha (haa.trans ha1)
  have r2 := ratio_nonneg (ha.trans haa) ha1
  have r3 := ratio_nonneg hx (hxx.trans hx1)
  have r4 := ratio_nonneg (hx.trans hxx) hx1
  have q1 := ratio_anti ha haa
  have q2 := ratio_anti hx hxx
  generalize (1 - a) / (1 + a) = s at *
  generalize (1 - a') / (1 + a') = s' at *
  generalize (1 - x) / (1 + x) = u at *
  generalize (1 - x') / (1 + x') = u' at *
  have hD : 1 + s' * u' ≤ 1 + s * u := by have := mul_le_mul q1 q2 r4 r1; linarith
  have hD' : 0 < 1 + s' * u' := by positivity
  have hn : 0 ≤ M * (s + u) := by positivity
  rw [mul_div_assoc', mul_div_assoc']
  refine ⟨div_le_div₀ (hn.trans (by linarith)) (by linarith) hD' hD, fun hlt => ?_⟩
  calc M * (s + u) / (1 + s * u) ≤ M * (s + u) / (1 + s' * u') := div_le_div_of_nonneg_left hn hD' hD
    _ < M' * (s' + u') / (1 + s' * u') := div_lt_div_of_pos_right (by linarith) hD'

variable {conn : Option (List ℤ)} {t : Topology}

/-- **C143** (outlets).  With walls at zero: in a faster flow all the fluid temperatures are higher (or equal), and the ratio of the heat to the mean temperature up to each borehole does not
decrease. -/
theorem network_faster (h : construct n conn = .ok t) (p : (i : Fin n) → Pipe (ns i)) (f f' : Formatted) (hrev : f'.rev = f.rev) (hcp : f'.cp = f.cp)
    (hp : ∀ i, (p i).Faster (mBore t f i) (mBore t f' i) f.cp)
    {ko ko' : Coef (Fin n) ns} (hko : netOutlet t p f = some ko) (hko' : netOutlet t p f' = some ko') (i : Fin n) :
    0 ≤ ko.eval 1 0 i ∧ ko.eval 1 0 i ≤ ko'.eval 1 0 i ∧ ko'.eval 1 0 i < 1 ∧
    |mBore t f i| * ((1 - ko.eval 1 0 i) / (1 + ko.eval 1 0 i)) ≤ |mBore t f' i| * ((1 - ko'.eval 1 0 i) / (1 + ko'.eval 1 0 i)) ∧
    ((p i).Gains (mBore t f i) (mBore t f' i) f.cp →
      |mBore t f i| * ((1 - ko.eval 1 0 i) / (1 + ko.eval 1 0 i)) < |mBore t f' i| * ((1 - ko'.eval 1 0 i) / (1 + ko'.eval 1 0 i))) := by
  obtain ⟨ki, k2, hki, h2, hs⟩ := network_temperatures h p f
  rw [hko, Option.some.injEq] at h2
  subst h2
  obtain ⟨ki', k2, hki', h2, hs'⟩ := network_temperatures h p f'
  rw [hko', Option.some.injEq] at h2
  subst h2
  obtain ⟨hsol, -⟩ := hs 1 0
  obtain ⟨hsol', -⟩ := hs' 1 0
  have hfed : ∀ i j : ℕ, FedBy t f' i j ↔ FedBy t f i j := fun i j => by unfold FedBy; rw [hrev]
  obtain ⟨rank, hrank⟩ := fedBy_rank h f
  obtain ⟨r, hr⟩ : ∃ r, rank i = r := ⟨_, rfl⟩
  induction r using Nat.strong_induction_on generalizing i with
  | _ r ih =>
    have hx : 0 ≤ ki.eval 1 0 i ∧ ki.eval 1 0 i ≤ ki'.eval 1 0 i ∧ ki'.eval 1 0 i ≤ 1 ∧
        |mBore t f i| * ((1 - ki.eval 1 0 i) / (1 + ki.eval 1 0 i)) ≤ |mBore t f' i| * ((1 - ki'.eval 1 0 i) / (1 + ki'.eval 1 0 i)) := by
      by_cases hf : ∃ j : Fin n, FedBy t f i j
      · obtain ⟨j, hj⟩ := hf
        rw [hsol.fed i j hj, hsol'.fed i j ((hfed i j).mpr hj), mBore_fedBy h f i j hj, mBore_fedBy h f' i j ((hfed i j).mpr hj)]
        obtain ⟨a, b, c, d, -⟩ := ih (rank j) (by rw [← hr]; exact hrank i j hj) j rfl
        exact ⟨a, b, c.le, d⟩
      · push Not at hf
        rw [hsol.inlet i hf, hsol'.inlet i fun j hj => hf j ((hfed i j).mp hj)]
        norm_num
    have e : ko.eval 1 0 i = (p i).outA (mBore t f i) f.cp * ki.eval 1 0 i := by rw [hsol.model i]; simp [boreA]
    have e' : ko'.eval 1 0 i = (p i).outA (mBore t f' i) f.cp * ki'.eval 1 0 i := by rw [hsol'.model i]; simp [boreA, hcp]
    obtain ⟨x0, x1, x2, x3⟩ := hx
    have hpi := hp i
    have a0 := hpi.nonneg
    have a1 := hpi.rise
    have a2 := hpi.heated
    obtain ⟨g1, g2⟩ := gain_mul (abs_nonneg _) a0 a1 a2.le x0 x1 x2 hpi.gain x3
    rw [e, e']
    refine ⟨mul_nonneg a0 x0, mul_le_mul a1 x1 x0 (a0.trans a1), ?_, g1, g2⟩
    calc (p i).outA (mBore t f' i) f.cp * ki'.eval 1 0 i ≤ (p i).outA (mBore t f' i) f.cp * 1 := mul_le_mul_of_nonneg_left x2 (a0.trans a1)
      _ < 1 := by rw [mul_one]; exact a2

/-- With uniform walls, the temperatures are at fixed fractions of the difference between the inlet and the walls. -/
theorem uniform_walls (h : construct n conn = .ok t) (p : (i : Fin n) → Pipe (ns i)) (f : Formatted) (hu : ∀ i, boreA t p f i + ∑ s, boreB t p f i s = 1)
    {ko : Coef (Fin n) ns} (hko : netOutlet t p f = some ko) (Tin Tw : ℝ) (i : Fin n) : ko.eval Tin (fun _ => Tw) i = Tw + (Tin - Tw) * ko.eval 1 0 i := by
  obtain ⟨ki, k2, hki, h2, hs⟩ := network_temperatures h p f
  rw [hko, Option.some.injEq] at h2
  subst h2
  obtain ⟨hsol, -⟩ := hs 1 0
  have hnew : Solves t f (boreA t p f) (boreB t p f) Tin (fun _ => Tw) (fun i => Tw + (Tin - Tw) * ki.eval 1 0 i) fun i => Tw + (Tin - Tw) * ko.eval 1 0 i :=
    ⟨fun i => by
      have := hsol.model i
      simp only [Pi.zero_apply, mul_zero, Finset.sum_const_zero, add_zero] at this
      rw [this, ← Finset.sum_mul]
      linear_combination (-Tw) * hu i, fun i j hij => by rw [hsol.fed i j hij], fun i hi => by rw [hsol.inlet i hi]; ring⟩
  exact (congrFun ((hs Tin fun _ => Tw).2 _ _ hnew).2 i).symm

theorem uniform_heat (h : construct n conn = .ok t) (p : (i : Fin n) → Pipe (ns i)) (f : Formatted) (hlen : f.mIn.length = t.nInlets)
    (hu : ∀ i, boreA t p f i + ∑ s, boreB t p f i s = 1) {ki ko : Coef (Fin n) ns} (hki : netInlet t p f = some ki) (hko : netOutlet t p f = some ko) (Tin Tw : ℝ) :
    (netHeat (fluidHeat t p f ki)).eval Tin (fun _ => Tw) ()
      = (Tw - Tin) * (f.cp * ∑ i : Fin n, if (i : ℕ) ∈ flowOutlets t f then |mBore t f i| * (1 - ko.eval 1 0 i) else 0) := by
  rw [heat_total h p f hlen ki ko hki hko, ← inlet_total h f hlen, ← flow_conservation h f, Finset.mul_sum, ← Finset.sum_sub_distrib, Finset.mul_sum, Finset.mul_sum, Finset.mul_sum]
  refine Finset.sum_congr rfl fun i _ => ?_
  rw [uniform_walls h p f hu hko]
  split_ifs <;> ring

/-- **C143** (heat).  From uniform walls at another temperature than the inlet, the network extracts heat in the direction from warm to cold, and a faster flow in the circuits extracts at
least as much; more if one circuit gains. -/
theorem network_faster_heat (h : construct n conn = .ok t) (p : (i : Fin n) → Pipe (ns i)) (f f' : Formatted) (hrev : f'.rev = f.rev) (hcp : f'.cp = f.cp) (hpos : 0 < f.cp)
    (hlen : f.mIn.length = t.nInlets) (hlen' : f'.mIn.length = t.nInlets)
    (hp : ∀ i, (p i).Faster (mBore t f i) (mBore t f' i) f.cp) (hu : ∀ i, boreA t p f i + ∑ s, boreB t p f i s = 1) (hu' : ∀ i, boreA t p f' i + ∑ s, boreB t p f' i s = 1)
    {ki ki' : Coef (Fin n) ns} (hki : netInlet t p f = some ki) (hki' : netInlet t p f' = some ki') (Tin Tw : ℝ) :
    0 ≤ (netHeat (fluidHeat t p f ki)).eval Tin (fun _ => Tw) () * (Tw - Tin) ∧
    |(netHeat (fluidHeat t p f ki)).eval Tin (fun _ => Tw) ()| ≤ |(netHeat (fluidHeat t p f' ki')).eval Tin (fun _ => Tw) ()| ∧
    (Tin ≠ Tw → (∃ i : Fin n, (i : ℕ) ∈ flowOutlets t f ∧ (p i).Gains (mBore t f i) (mBore t f' i) f.cp) →
      |(netHeat (fluidHeat t p f ki)).eval Tin (fun _ => Tw) ()| < |(netHeat (fluidHeat t p f' ki')).eval Tin (fun _ => Tw) ()|) := by
  obtain ⟨-, ko, -, hko, -⟩ := network_temperatures h p f
  obtain ⟨-, ko', -, hko', -⟩ := network_temperatures h p f'
  have hf := network_faster h p f f' hrev hcp hp hko hko'
  have ho : flowOutlets t f' = flowOutlets t f := by unfold flowOutlets; rw [hrev]
  rw [uniform_heat h p f hlen hu hki hko, uniform_heat h p f' hlen' hu' hki' hko', hcp, ho]
  obtain ⟨C, hC⟩ : ∃ C : ℝ, C = f.cp * ∑ i : Fin n, if (i : ℕ) ∈ flowOutlets t f then |mBore t f i| * (1 - ko.eval 1 0 i) else 0 := ⟨_, rfl⟩
  obtain ⟨C', hC'⟩ : ∃ C : ℝ, C = f.cp * ∑ i : Fin n, if (i : ℕ) ∈ flowOutlets t f then |mBore t f' i| * (1 - ko'.eval 1 0 i) else 0 := ⟨_, rfl⟩
  rw [← hC, ← hC']
  -- the heat of one circuit
  have hone : ∀ {M M' y y' : ℝ}, 0 ≤ M → 0 ≤ y → y ≤ y' → y' < 1 → M * ((1 - y) / (1 + y)) ≤ M' * ((1 - y') / (1 + y')) →
      M * (1 - y) ≤ M' * (1 - y') ∧ (M * ((1 - y) / (1 + y)) < M' * ((1 - y') / (1 + y')) → M * (1 - y) < M' * (1 - y')) := fun {M M' y y'} hM h0 h1 h2 hg => by
    have e1 : M * (1 - y) = M * ((1 - y) / (1 + y)) * (1 + y) := by
      have : 1 + y ≠ 0 := by positivity
      field_simp
    have e2 : M' * (1 - y') = M' * ((1 - y') / (1 + y')) * (1 + y') := by
      have : 1 + y' ≠ 0 := by linarith
      field_simp
    have hr : 0 ≤ M * ((1 - y) / (1 + y)) := mul_nonneg hM (ratio_nonneg h0 (h1.trans h2.le))
    rw [e1, e2]
    refine ⟨mul_le_mul hg (by linarith) (by linarith) (hr.trans hg), fun hlt => ?_⟩
    calc M * ((1 - y) / (1 + y)) * (1 + y) ≤ M * ((1 - y) / (1 + y)) * (1 + y') := mul_le_mul_of_nonneg_left (by linarith) hr
      _ < _ := mul_lt_mul_of_pos_right hlt (by linarith)
  have hC0 : 0 ≤ C := by
    rw [hC]
    refine mul_nonneg hpos.le (Finset.sum_nonneg fun i _ => ?_)
    split_ifs
    · have := (hf i).2.1.trans (hf i).2.2.1.le
      exact mul_nonneg (abs_nonneg _) (by linarith)
    · exact le_rfl
  have hCC : C ≤ C' := by
    rw [hC, hC']
    refine mul_le_mul_of_nonneg_left (Finset.sum_le_sum fun i _ => ?_) hpos.le
    split_ifs
    · exact (hone (abs_nonneg _) (hf i).1 (hf i).2.1 (hf i).2.2.1 (hf i).2.2.2.1).1
    · exact le_rfl
  refine ⟨by nlinarith [sq_nonneg (Tw - Tin)], ?_, fun hne hex => ?_⟩
  · rw [abs_mul, abs_mul, abs_of_nonneg hC0, abs_of_nonneg (hC0.trans hCC)]
    exact mul_le_mul_of_nonneg_left hCC (abs_nonneg _)
  · obtain ⟨i, hi, hg⟩ := hex
    rw [abs_mul, abs_mul, abs_of_nonneg hC0, abs_of_nonneg (hC0.trans hCC)]
    refine mul_lt_mul_of_pos_left ?_ (abs_pos.mpr (sub_ne_zero.mpr hne.symm))
    rw [hC, hC']
    refine mul_lt_mul_of_pos_left (Finset.sum_lt_sum (fun i _ => ?_) ⟨i, Finset.mem_univ i, ?_⟩) hpos
    · split_ifs
      · exact (hone (abs_nonneg _) (hf i).1 (hf i).2.1 (hf i).2.2.1 (hf i).2.2.2.1).1
      · exact le_rfl
    · rw [if_pos hi, if_pos hi]
      exact (hone (abs_nonneg _) (hf i).1 (hf i).2.1 (hf i).2.2.1 (hf i).2.2.2.1).2 ((hf i).2.2.2.2 hg)

/-- Mixing of circuits: if the ratio of every circuit gains when all flow rates are multiplied by `r`, so does the ratio of the mixed outlet. -/
theorem mix_gain {ι : Type*} [Fintype ι] {w y y' : ι → ℝ} {r : ℝ} (hr : 1 ≤ r) (hw : ∀ i, 0 ≤ w i) (h1 : ∑ i, w i = 1) (hy : ∀ i, w i ≠ 0 → 0 ≤ y i) (hyy : ∀ i, w i ≠ 0 → y' i < 1)
    (hy' : ∀ i, w i ≠ 0 → 0 ≤ y' i) (hg : ∀ i, w i ≠ 0 → (1 - y i) / (1 + y i) < r * ((1 - y' i) / (1 + y' i))) :
    (1 - ∑ i, w i * y i) / (1 + ∑ i, w i * y i) < r * ((1 - ∑ i, w i * y' i) / (1 + ∑ i, w i * y' i)) := by
  obtain ⟨Y, hY⟩ : ∃ Y, Y = ∑ i, w i * y i := ⟨_, rfl⟩
  obtain ⟨Z, hZ⟩ : ∃ Z, Z = ∑ i, w i * y' i := ⟨_, rfl⟩
  rw [← hY, ← hZ]
  have hex : ∃ i, w i ≠ 0 := by
    by_contra hno
    push Not at hno
    simp [hno] at h1
  have hY0 : 0 ≤ Y := by
    rw [hY]
    refine Finset.sum_nonneg fun i _ => ?_
    by_cases hi : w i = 0
    · simp [hi]
    · exact mul_nonneg (hw i) (hy i hi)
  have hZ0 : 0 ≤ Z := by
    rw [hZ]
    refine Finset.sum_nonneg fun i _ => ?_
    by_cases hi : w i = 0
    · simp [hi]
    · exact mul_nonneg (hw i) (hy' i hi)
  have hZ1 : Z ≤ 1 := by
    rw [hZ, ← h1]
    refine Finset.sum_le_sum fun i _ => ?_
    by_cases hi : w i = 0
    · simp [hi]
    · nlinarith [hw i, hyy i hi]
  -- the temperature with the ratio `r` times that of `z`
  have hD : ∀ z : ℝ, z ≤ 1 → 0 < 1 + r - (r - 1) * z := fun z hz => by nlinarith
  have hlow : ∀ i, w i ≠ 0 → ((1 + r) * y' i - (r - 1)) / (1 + r - (r - 1) * y' i) < y i := fun i hi => by
    have := hg i hi
    have hd := hD (y' i) (hyy i hi).le
    rw [mul_div_assoc', div_lt_div_iff₀ (by linarith [hy i hi]) (by linarith [hy' i hi])] at this
    rw [div_lt_iff₀ hd]
    nlinarith
  -- its tangent at the mixed outlet
  have htan : ∀ z : ℝ, z ≤ 1 → ((1 + r) * Z - (r - 1)) / (1 + r - (r - 1) * Z) + 4 * r / (1 + r - (r - 1) * Z) ^ 2 * (z - Z)
      ≤ ((1 + r) * z - (r - 1)) / (1 + r - (r - 1) * z) := fun z hz => by
    have hd := hD z hz
    have hd' := hD Z hZ1
    have e : ((1 + r) * z - (r - 1)) / (1 + r - (r - 1) * z) - (((1 + r) * Z - (r - 1)) / (1 + r - (r - 1) * Z) + 4 * r / (1 + r - (r - 1) * Z) ^ 2 * (z - Z))
        = 4 * r * (r - 1) * (z - Z) ^ 2 / ((1 + r - (r - 1) * z) * (1 + r - (r - 1) * Z) ^ 2) := by
      obtain ⟨d, hdz⟩ : ∃ d, d = 1 + r - (r - 1) * z := ⟨_, rfl⟩
      obtain ⟨d', hdZ⟩ : ∃ d, d = 1 + r - (r - 1) * Z := ⟨_, rfl⟩
      rw [← hdz, ← hdZ]
      have h3 : d ≠ 0 := by rw [hdz]; exact hd.ne'
      have h4 : d' ≠ 0 := by rw [hdZ]; exact hd'.ne'
      field_simp
      rw [hdz, hdZ]
      ring
    have : 0 ≤ 4 * r * (r - 1) * (z - Z) ^ 2 / ((1 + r - (r - 1) * z) * (1 + r - (r - 1) * Z) ^ 2) := by
      have : 0 ≤ r - 1 := by linarith
      positivity
    linarith
  have hlt : ((1 + r) * Z - (r - 1)) / (1 + r - (r - 1) * Z) < Y := by
    obtain ⟨A, hA⟩ : ∃ A, A = ((1 + r) * Z - (r - 1)) / (1 + r - (r - 1) * Z) := ⟨_, rfl⟩
    obtain ⟨B, hB⟩ : ∃ B, B = 4 * r / (1 + r - (r - 1) * Z) ^ 2 := ⟨_, rfl⟩
    rw [← hA, ← hB] at htan
    rw [← hA]
    have e : A = ∑ i, w i * (A + B * (y' i - Z)) := by
      have : ∀ i, w i * (A + B * (y' i - Z)) = w i * (A - B * Z) + B * (w i * y' i) := fun i => by ring
      rw [Finset.sum_congr rfl fun i _ => this i, Finset.sum_add_distrib, ← Finset.sum_mul, ← Finset.mul_sum, ← hZ, h1]
      ring
    rw [e, hY]
    obtain ⟨i, hi⟩ := hex
    refine Finset.sum_lt_sum (fun j _ => ?_) ⟨i, Finset.mem_univ i, ?_⟩
    · by_cases hj : w j = 0
      · simp [hj]
      · exact mul_le_mul_of_nonneg_left ((htan _ (hyy j hj).le).trans (hlow j hj).le) (hw j)
    · exact mul_lt_mul_of_pos_left ((htan _ (hyy i hi).le).trans_lt (hlow i hi)) (lt_of_le_of_ne (hw i) (Ne.symm hi))
  rw [mul_div_assoc', div_lt_div_iff₀ (by linarith) (by linarith)]
  rw [div_lt_iff₀ (hD Z hZ1)] at hlt
  nlinarith

theorem aligned_scale {r : ℝ} {f : Formatted} (ha : Aligned t f) : Aligned t (f.scale r) := fun k o hk => by
  have ho : (flowOutlets t f)[k]? = some o := hk
  have := ha k o ho
  rw [mBore_scale, ← this]
  show (f.mIn.map (r * ·)).getD k 0 = _
  rw [List.getD_eq_getElem?_getD, List.getD_eq_getElem?_getD, List.getElem?_map]
  cases f.mIn[k]? <;> simp

theorem abs_scale {r : ℝ} (hr : 0 ≤ r) (f : Formatted) : ((f.scale r).mIn.map abs).sum = r * (f.mIn.map abs).sum := by
  show ((f.mIn.map (r * ·)).map abs).sum = _
  rw [List.map_map, ← List.sum_map_mul_left]
  congr 1
  exact List.map_congr_left fun a _ => by simp [abs_mul, abs_of_nonneg hr]

/-- The effective resistance of a network from the response of its mixed outlet. -/
theorem resistance_ratio (h : construct n conn = .ok t) (p : (i : Fin n) → Pipe (ns i)) (f : Formatted) (hlen : f.mIn.length = t.nInlets) (hflow : (f.mIn.map abs).sum ≠ 0)
    (ha : Aligned t f) {ki ko : Coef (Fin n) ns} (hki : netInlet t p f = some ki) (hko : netOutlet t p f = some ko) (Htot : ℝ) :
    netResistance Htot (netMixed (mixing (flowOutlets t f) f.mIn) ko) (netHeat (fluidHeat t p f ki))
      = Htot / 2 / (f.cp * ((f.mIn.map abs).sum * ((1 - (netMixed (mixing (flowOutlets t f) f.mIn) ko).aIn ()) / (1 + (netMixed (mixing (flowOutlets t f) f.mIn) ko).aIn ())))) := by
  have hev : ∀ k : Coef Unit ns, k.eval 1 0 () = k.aIn () := fun k => by simp [Coef.eval]
  have e1 := energy_balance_partial h p f hlen hflow ha ki ko hki hko 1 0
  rw [hev, hev] at e1
  unfold netResistance
  rw [e1]
  obtain ⟨o, ho⟩ : ∃ o, o = (netMixed (mixing (flowOutlets t f) f.mIn) ko).aIn () := ⟨_, rfl⟩
  rw [← ho]
  rw [mul_div_assoc', mul_div_assoc', div_div_eq_mul_div, ← neg_sub 1 o, mul_neg, div_neg]
  rw [show f.cp * ((f.mIn.map abs).sum * (1 - o)) = (f.mIn.map abs).sum * f.cp * (1 - o) by ring]
  ring

/-- The effective resistance of a network from the heat that it extracts, inlet at one and walls at zero. -/
theorem resistance_conductance (h : construct n conn = .ok t) (p : (i : Fin n) → Pipe (ns i)) (f : Formatted) (hlen : f.mIn.length = t.nInlets) (hflow : (f.mIn.map abs).sum ≠ 0)
    (ha : Aligned t f) (hcp : f.cp ≠ 0) {ki ko : Coef (Fin n) ns} (hki : netInlet t p f = some ki) (hko : netOutlet t p f = some ko) (Htot C : ℝ) (hC0 : C ≠ 0)
    (hC : (netHeat (fluidHeat t p f ki)).aIn () = -C) :
    netResistance Htot (netMixed (mixing (flowOutlets t f) f.mIn) ko) (netHeat (fluidHeat t p f ki)) = Htot * (1 / C - 1 / (2 * ((f.mIn.map abs).sum * f.cp))) := by
  have hev : ∀ k : Coef Unit ns, k.eval 1 0 () = k.aIn () := fun k => by simp [Coef.eval]
  have e1 := energy_balance_partial h p f hlen hflow ha ki ko hki hko 1 0
  rw [hev, hev, hC] at e1
  unfold netResistance
  rw [hC]
  field_simp
  linear_combination (-Htot) * e1

/-- **C143** (resistance).  Multiplying all flow rates by a factor larger than one lowers the effective resistance of the network. -/
theorem network_faster_resistance (h : construct n conn = .ok t) (p : (i : Fin n) → Pipe (ns i)) (f : Formatted) {r : ℝ} (hr : 1 < r) (hpos : 0 < f.cp)
    (hlen : f.mIn.length = t.nInlets) (hflow : (f.mIn.map abs).sum ≠ 0) (ha : Aligned t f) (hp : ∀ i, (p i).Faster (mBore t f i) (r * mBore t f i) f.cp)
    (hg : ∀ i : Fin n, mBore t f i ≠ 0 → (p i).Gains (mBore t f i) (r * mBore t f i) f.cp) {ki ko ki' ko' : Coef (Fin n) ns} (hki : netInlet t p f = some ki)
    (hko : netOutlet t p f = some ko) (hki' : netInlet t p (f.scale r) = some ki') (hko' : netOutlet t p (f.scale r) = some ko') {Htot : ℝ} (hH : 0 < Htot) :
    0 < netResistance Htot (netMixed (mixing (flowOutlets t (f.scale r)) (f.scale r).mIn) ko') (netHeat (fluidHeat t p (f.scale r) ki')) ∧
    netResistance Htot (netMixed (mixing (flowOutlets t (f.scale r)) (f.scale r).mIn) ko') (netHeat (fluidHeat t p (f.scale r) ki'))
      < netResistance Htot (netMixed (mixing (flowOutlets t f) f.mIn) ko) (netHeat (fluidHeat t p f ki)) := by
  have hr0 : (0 : ℝ) < r := by linarith
  have hS : 0 < (f.mIn.map abs).sum := lt_of_le_of_ne (List.sum_nonneg fun a ha => by
    obtain ⟨b, -, rfl⟩ := List.mem_map.mp ha
    exact abs_nonneg b) (Ne.symm hflow)
  have hlen' : (f.scale r).mIn.length = t.nInlets := by rw [← hlen]; exact List.length_map _
  have hS' := abs_scale hr0.le f
  have hflow' : ((f.scale r).mIn.map abs).sum ≠ 0 := by rw [hS']; positivity
  have hf := network_faster h p f (f.scale r) rfl rfl (fun i => by rw [mBore_scale]; exact hp i) hko hko'
  rw [resistance_ratio h p f hlen hflow ha hki hko, resistance_ratio h p (f.scale r) hlen' hflow' (aligned_scale ha) hki' hko']
  have ho : flowOutlets t (f.scale r) = flowOutlets t f := rfl
  have hmix : mixing (flowOutlets t (f.scale r)) (f.scale r).mIn = mixing (flowOutlets t f) f.mIn := mixing_scale hr0 _ _
  rw [hmix, hS']
  obtain ⟨w0, w1⟩ := mixing_average h f hlen hflow
  have hev : ∀ k : Coef (Fin n) ns, (netMixed (mixing (flowOutlets t f) f.mIn) k).aIn () = ∑ i : Fin n, mixing (flowOutlets t f) f.mIn i * k.eval 1 0 i := fun k => by
    simp [netMixed, Coef.eval]
  rw [hev, hev]
  have hwm : ∀ i : Fin n, mixing (flowOutlets t f) f.mIn i ≠ 0 → mBore t f i ≠ 0 := fun i hi hm0 => hi (by
    rw [mixing_aligned h f ha i, hm0]; simp)
  have hmain := mix_gain (w := fun i : Fin n => mixing (flowOutlets t f) f.mIn i) (y := ko.eval 1 0) (y' := ko'.eval 1 0) hr.le (fun i => w0 i) w1 (fun i _ => (hf i).1)
    (fun i _ => (hf i).2.2.1) (fun i _ => (hf i).1.trans (hf i).2.1) (fun i hi => by
      have h1 := (hf i).2.2.2.2 (by rw [mBore_scale]; exact hg i (hwm i hi))
      rw [mBore_scale, abs_mul, abs_of_pos hr0, mul_comm r, mul_assoc] at h1
      exact lt_of_mul_lt_mul_left h1 (abs_nonneg _))
  obtain ⟨R, hR⟩ : ∃ R : ℝ, R = (1 - ∑ i : Fin n, mixing (flowOutlets t f) f.mIn i * ko.eval 1 0 i) / (1 + ∑ i : Fin n, mixing (flowOutlets t f) f.mIn i * ko.eval 1 0 i) := ⟨_, rfl⟩
  obtain ⟨R', hR'⟩ : ∃ R : ℝ, R = (1 - ∑ i : Fin n, mixing (flowOutlets t f) f.mIn i * ko'.eval 1 0 i) / (1 + ∑ i : Fin n, mixing (flowOutlets t f) f.mIn i * ko'.eval 1 0 i) := ⟨_, rfl⟩
  rw [← hR, ← hR'] at hmain
  rw [← hR, ← hR']
  have hR0 : 0 < R := by
    have hY0 : 0 ≤ ∑ i : Fin n, mixing (flowOutlets t f) f.mIn i * ko.eval 1 0 i := Finset.sum_nonneg fun i _ => mul_nonneg (w0 i) (hf i).1
    have hY1 : ∑ i : Fin n, mixing (flowOutlets t f) f.mIn i * ko.eval 1 0 i < 1 := by
      have hex : ∃ i : Fin n, 0 < mixing (flowOutlets t f) f.mIn i := by
        by_contra hno
        push Not at hno
        have : ∑ i : Fin n, mixing (flowOutlets t f) f.mIn i ≤ 0 := Finset.sum_nonpos fun i _ => hno i
        linarith
      obtain ⟨i, hi⟩ := hex
      have hlt : ∀ j, ko.eval 1 0 j < 1 := fun j => (hf j).2.1.trans_lt (hf j).2.2.1
      exact lt_of_lt_of_eq (Finset.sum_lt_sum (fun j _ => mul_le_of_le_one_right (w0 j) (hlt j).le) ⟨i, Finset.mem_univ i, mul_lt_of_lt_one_right hi (hlt i)⟩) w1
    rw [hR]
    exact div_pos (by linarith) (by linarith)
  have hcp' : (f.scale r).cp = f.cp := rfl
  rw [hcp']
  have hden : 0 < f.cp * ((f.mIn.map abs).sum * R) := by positivity
  have hlt : f.cp * ((f.mIn.map abs).sum * R) < f.cp * (r * (f.mIn.map abs).sum * R') := by
    refine mul_lt_mul_of_pos_left ?_ hpos
    have := mul_lt_mul_of_pos_left hmain hS
    nlinarith
  exact ⟨div_pos (by linarith) (hden.trans hlt), div_lt_div_of_pos_left (by linarith) hden hlt⟩

end Verif.Net
