import Verif.Pipe.CoaxModel
import Verif.Pipe.RfpProps
import Verif.Pipe.PolePipeProps

/-!
# Property C150: better pipes, better insulation between them and better grout always make a better coaxial borehole
-/

noncomputable section

namespace Verif.Pipe

open Real Pole

/-- Specification: a coaxial borehole.  The outer pipe is inside the borehole, and the resistances are those of line sources or the pipes are concentric with the borehole. -/
structure Coax.Physical (c : Coax) : Prop where
  radii : c.rOut 0 ≠ c.rOut 1
  pos : ∀ i, 0 < c.rOut i
  inside : ∀ i, ‖c.pos‖ + c.rOut i < c.rb
  kg : 0 < c.kg
  ks : 0 < c.ks
  H : 0 < c.H
  poles : c.J = 0 ∨ c.pos = 0

/-- Specification: resistance of the grout (and of the ground inside the images of the line sources) around the outer pipe. -/
def Coax.grout (c : Coax) : ℝ :=
  1 / (2 * π * c.kg) * (log (c.rb / max (c.rOut 0) (c.rOut 1)) + (c.kg - c.ks) / (c.kg + c.ks) * log (c.rb ^ 2 / (c.rb ^ 2 - ‖c.pos‖ ^ 2)))

/-- Specification: the effective resistance of a borehole of local resistance `R`, resistance `f` between the pipes, and length over heat capacity rate `K`. -/
def coaxEff (K f R : ℝ) : ℝ := √(1 / 4 + R / f) * (K * coth (K * √(1 / 4 * (1 / R) ^ 2 + 1 / f * (1 / R))))

theorem coaxEff_wall {K f R R' : ℝ} (hK : 0 < K) (hf : 0 < f) (hR : 0 < R) (h : R < R') : coaxEff K f R < coaxEff K f R' := by
  have hR' := hR.trans h
  have h1 : 1 / R' < 1 / R := one_div_lt_one_div_of_lt hR h
  have p1 : 0 < 1 / R' := by positivity
  have pf : 0 < 1 / f := by positivity
  have h2 : √(1 / 4 * (1 / R') ^ 2 + 1 / f * (1 / R')) < √(1 / 4 * (1 / R) ^ 2 + 1 / f * (1 / R)) :=
    sqrt_lt_sqrt (by positivity) (by nlinarith [mul_lt_mul_of_pos_left h1 pf])
  have h3 : 0 < √(1 / 4 * (1 / R') ^ 2 + 1 / f * (1 / R')) := sqrt_pos.mpr (by positivity)
  have h4 := coth_lt (mul_pos hK h3) (mul_lt_mul_of_pos_left h2 hK)
  have h5 : √(1 / 4 + R / f) < √(1 / 4 + R' / f) := sqrt_lt_sqrt (by positivity) (by gcongr)
  have h6 := coth_pos (mul_pos hK (h3.trans h2))
  unfold coaxEff
  apply mul_lt_mul h5 (mul_lt_mul_of_pos_left h4 hK).le (mul_pos hK h6) (sqrt_nonneg _)

theorem coaxEff_eq {K f R : ℝ} (hR : 0 < R) :
    coaxEff K f R = R * ((√(1 / 4 * (1 / R) ^ 2 + 1 / f * (1 / R)) * K) * coth (√(1 / 4 * (1 / R) ^ 2 + 1 / f * (1 / R)) * K)) := by
  have e : √(1 / 4 + R / f) = R * √(1 / 4 * (1 / R) ^ 2 + 1 / f * (1 / R)) := by
    conv_rhs => rw [← sqrt_sq hR.le]
    rw [← sqrt_mul (sq_nonneg R), sqrt_sq hR.le]
    congr 1
    field_simp
  unfold coaxEff
  rw [e, mul_comm K (√_)]
  ring

theorem coaxEff_short {K f f' R : ℝ} (hK : 0 < K) (hf : 0 < f) (h : f < f') (hR : 0 < R) : coaxEff K f' R < coaxEff K f R := by
  have hf' := hf.trans h
  have h1 : 1 / f' < 1 / f := one_div_lt_one_div_of_lt hf h
  have p1 : 0 < 1 / R := by positivity
  have h2 : √(1 / 4 * (1 / R) ^ 2 + 1 / f' * (1 / R)) < √(1 / 4 * (1 / R) ^ 2 + 1 / f * (1 / R)) :=
    sqrt_lt_sqrt (by positivity) (by nlinarith [mul_lt_mul_of_pos_left h1 p1])
  have h3 : 0 < √(1 / 4 * (1 / R) ^ 2 + 1 / f' * (1 / R)) := sqrt_pos.mpr (by positivity)
  rw [coaxEff_eq hR, coaxEff_eq hR]
  exact mul_lt_mul_of_pos_left (mul_coth_lt (mul_pos h3 hK) (mul_lt_mul_of_pos_right h2 hK)) hR

/-! ### Resistance of one pipe -/

theorem one_pole_next {s : Sec 1} (hz : ∀ i, s.z i = 0) (q : Fin 1 → ℝ) (J : ℕ) : s.next q (fun _ (_ : Fin J) => 0) = fun _ _ => 0 := by
  funext m k
  have hm : ∀ i : Fin 1, m = i := fun i => Subsingleton.elim _ _
  have hF : s.F q (fun _ (_ : Fin J) => 0) m k = 0 := by
    unfold Sec.F
    have e1 : ∀ e : ℕ, (0 : ℂ) ^ (e + 1) = 0 := fun e => zero_pow (by omega)
    simp only [if_pos (hm _), hz, map_zero, Finset.sum_const_zero, mul_zero, zero_mul, e1, add_zero]
  unfold Sec.next
  rw [hF, map_zero, mul_zero]

theorem one_pole {s : Sec 1} (hz : ∀ i, s.z i = 0) (q : Fin 1 → ℝ) (J : ℕ) (eps : ℝ) (itMax : ℕ) : (s.poles q J eps itMax).P = fun _ _ => 0 := by
  have : ∀ k (x : Iter 1 J), (x.P = fun _ _ => 0) → (s.iterate q eps k x).P = fun _ _ => 0 := by
    intro k
    induction k with
    | zero => intro x hx; exact hx
    | succ k ih =>
      intro x hx
      unfold Sec.iterate
      split_ifs
      · refine ih _ ?_
        show s.next q x.P = _
        rw [hx, one_pole_next hz]
      · exact hx
  unfold Sec.poles
  split_ifs
  · exact this _ _ rfl
  · rfl

theorem one_resist {s : Sec 1} (hs : s.Ok) {J : ℤ} (h : J = 0 ∨ ∀ i, s.z i = 0) : s.resist J = s.R0 := by
  unfold Sec.resist
  split_ifs with h0
  · exact line_eq_R0 hs
  · have hz := h.resolve_left h0
    ext i m
    have hm : m = i := Subsingleton.elim _ _
    subst hm
    show s.fluid 0 _ (s.poles _ _ _ _).P m = _
    rw [one_pole hz]
    unfold Sec.fluid
    simp [Subsingleton.elim m 0]

variable {c : Coax}

theorem Coax.Physical.ok (h : c.Physical) (x : ℝ) : (c.sec x).Ok := by
  have h1 := h.inside 0
  have h0 := h.pos 0
  have h2 := norm_nonneg c.pos
  exact ⟨by show 0 < c.rb; linarith, h.kg.ne', fun _ => by show ‖c.pos‖ < c.rb; linarith⟩

theorem Coax.outer_max (c : Coax) : c.rOut c.iOuter = max (c.rOut 0) (c.rOut 1) := by
  unfold Coax.iOuter
  split_ifs with h
  · rw [max_eq_left h]
  · rw [max_eq_right (not_le.mp h).le]

theorem Coax.Physical.indices (h : c.Physical) : c.iOuter ≠ c.iInner := by
  unfold Coax.iOuter Coax.iInner
  rcases lt_or_gt_of_ne h.radii with h1 | h1
  · rw [if_neg (not_le.mpr h1), if_pos h1.le]; decide
  · rw [if_pos h1.le, if_neg (not_le.mpr h1)]; decide

theorem Coax.Physical.grout_pos (h : c.Physical) : 0 < c.grout := by
  obtain ⟨r, hr⟩ : ∃ r, r = max (c.rOut 0) (c.rOut 1) := ⟨_, rfl⟩
  obtain ⟨D, hD⟩ : ∃ D, D = ‖c.pos‖ := ⟨_, rfl⟩
  have hD0 : 0 ≤ D := hD ▸ norm_nonneg _
  have hr0 : 0 < r := by rw [hr]; exact lt_max_of_lt_left (h.pos 0)
  have hi : D + r < c.rb := by
    rw [hr, hD]
    rcases max_choice (c.rOut 0) (c.rOut 1) with e | e <;> rw [e]
    · exact h.inside 0
    · exact h.inside 1
  have hkg := h.kg
  have hks := h.ks
  unfold Coax.grout
  rw [← hr, ← hD]
  have hp : 0 < 1 / (2 * π * c.kg) := by have := pi_pos; positivity
  apply mul_pos hp
  have hσ : -1 < (c.kg - c.ks) / (c.kg + c.ks) := by rw [lt_div_iff₀ (by linarith)]; linarith
  have hm : 0 < c.rb ^ 2 - D ^ 2 := by nlinarith
  have hb : 0 < c.rb := by linarith
  rcases hD0.eq_or_lt with e | hpos
  · rw [← e]
    have : log (c.rb ^ 2 / (c.rb ^ 2 - 0 ^ 2)) = 0 := by
      rw [show c.rb ^ 2 - 0 ^ 2 = c.rb ^ 2 by ring, div_self (by positivity), log_one]
    rw [this, mul_zero, add_zero]
    exact log_pos (by rw [lt_div_iff₀ hr0]; linarith)
  · apply log_sigma hσ
    · rw [lt_div_iff₀ hm]; nlinarith
    · rw [div_le_div_iff₀ hm hr0]
      have : c.rb * r ≤ (c.rb + D) * (c.rb - D) := by nlinarith
      nlinarith

/-- The coaxial borehole: `U-tube` with the resistances of the pipes and the grout in series. -/
theorem Coax.Physical.tube_eq (h : c.Physical) {f x : ℝ} (hx : 0 ≤ x) : c.tube f x = some (coaxial c.iInner f (x + c.grout) c.H c.reversible) := by
  have hg := h.grout_pos
  have hpi := pi_pos
  have hkg := h.kg
  have hR : (c.sec x).resist c.J = !![x + c.grout] := by
    rw [one_resist (h.ok x) (h.poles.imp_right fun e _ => e)]
    ext i j
    have hi : i = 0 := Subsingleton.elim _ _
    have hj : j = 0 := Subsingleton.elim _ _
    subst hi; subst hj
    show 1 / (2 * π * c.kg) * (log (c.rb / c.rOut c.iOuter) + 2 * π * c.kg * x + (c.kg - c.ks) / (c.kg + c.ks) * log (c.rb ^ 2 / (c.rb ^ 2 - ‖c.pos‖ ^ 2))) = x + c.grout
    rw [c.outer_max]
    unfold Coax.grout
    have e3 : 1 / (2 * π * c.kg) * (2 * π * c.kg * x) = x := by field_simp
    linear_combination e3
  have hpos : 0 < x + c.grout := by linarith
  have hd : delta !![x + c.grout] = some (!![x + c.grout]) := by
    unfold delta
    rw [if_neg (by rw [Matrix.det_fin_one]; exact hpos.ne')]
    congr 1
    ext i j
    have hi : i = 0 := Subsingleton.elim _ _
    have hj : j = 0 := Subsingleton.elim _ _
    subst hi; subst hj
    unfold recip conduct
    simp [Ring.inverse_eq_inv']
  unfold Coax.tube Sec.resistances
  rw [hR, hd]
  have hne := h.indices
  simp only [Option.map_some, Option.some.injEq]
  unfold coaxial
  congr 1
  funext i j
  show (if i = c.iOuter ∧ j = c.iOuter then 1 / (x + c.grout) else _) = _
  generalize c.iOuter = o at *
  generalize c.iInner = n at *
  fin_cases i <;> fin_cases j <;> fin_cases o <;> fin_cases n <;> simp_all

theorem coaxial_eff (i : Fin 2) {f R H : ℝ} (rev : Bool) (hf : 0 < f) (hR : 0 < R) (hH : 0 < H) {m cp : ℝ} (hm : m ≠ 0) (hc : 0 < cp) (hd : 0 < m ∨ rev = true) :
    (coaxial i f R H rev).localResistance = R ∧ (coaxial i f R H rev).effectiveResistance m cp = coaxEff (H / (|m| * cp)) f R := by
  have hv := UTube.coaxial_valid i rev hH hf hR
  have hl : (coaxial i f R H rev).localResistance = R := by
    unfold UTube.localResistance
    fin_cases i <;> simp [coaxial]
  have hcirc : (coaxial i f R H rev).circuit = √(1 / 4 * (1 / R) ^ 2 + 1 / f * (1 / R)) := by
    unfold UTube.circuit
    fin_cases i <;> simp [coaxial]
  refine ⟨hl, ?_⟩
  rw [UTube.effective_eta hv hm hc hd, hl, coaxEff_eq hR]
  unfold UTube.eta
  rw [hcirc]
  show R * (_ * H / (|m| * cp) * coth (_ * H / (|m| * cp))) = _
  rw [mul_div_assoc]

/-! ### Properties -/

/-- Specification: the second borehole is better: lower effective resistance, and more heat exchanged with walls at a uniform temperature. -/
structure Better (t t' : UTube) (m cp : ℝ) : Prop where
  resistance : t'.effectiveResistance m cp < t.effectiveResistance m cp
  heat : ∀ {zu zu' : ℕ → ℝ} {n n' : ℕ} {Tin Tw : ℝ}, Edges zu n t.H → Edges zu' n' t'.H → Tin ≠ Tw →
    |t.fluidHeat zu n m cp Tin (fun _ => Tw)| < |t'.fluidHeat zu' n' m cp Tin (fun _ => Tw)|

/-- **C150** (construction).  A physical coaxial borehole is defined for all resistances of the pipes, whichever of the two radii is given first; its local borehole
thermal resistance is the resistance of the outer pipe and that of the grout in series, which is positive and the same for all pipes. -/
theorem coaxial_defined (h : c.Physical) {f x : ℝ} (hf : 0 < f) (hx : 0 ≤ x) : 0 < c.grout ∧ ∃ t, c.tube f x = some t ∧ t.Valid ∧ t.H = c.H ∧
    t.reversible = c.reversible ∧ t.localResistance = x + c.grout :=
  have hg := h.grout_pos
  ⟨hg, _, h.tube_eq hx, UTube.coaxial_valid _ _ h.H hf (by linarith), rfl, rfl, (coaxial_eff c.iInner true hf (by linarith) h.H one_ne_zero one_pos (Or.inr rfl)).1⟩

theorem better_of {c' : Coax} (h : c.Physical) (h' : c'.Physical) (hH : c'.H = c.H) {f f' x x' : ℝ} (hf : 0 < f) (hf' : 0 < f') (hx : 0 ≤ x) (hx' : 0 ≤ x')
    (h1 : f ≤ f') (h2 : x' + c'.grout ≤ x + c.grout) (hne : f < f' ∨ x' + c'.grout < x + c.grout) {t t' : UTube} (ht : c.tube f x = some t)
    (ht' : c'.tube f' x' = some t') {m cp : ℝ} (hm : m ≠ 0) (hc : 0 < cp) (hd : 0 < m ∨ c.reversible = true) (hd' : 0 < m ∨ c'.reversible = true) : Better t t' m cp := by
  rw [h.tube_eq hx, Option.some.injEq] at ht
  rw [h'.tube_eq hx', Option.some.injEq] at ht'
  have hR : 0 < x + c.grout := by have := h.grout_pos; linarith
  have hR' : 0 < x' + c'.grout := by have := h'.grout_pos; linarith
  have e := (coaxial_eff c.iInner c.reversible hf hR h.H hm hc hd).2
  have e' := (coaxial_eff c'.iInner c'.reversible hf' hR' h'.H hm hc hd').2
  have hv := UTube.coaxial_valid c.iInner c.reversible h.H hf hR
  have hv' := UTube.coaxial_valid c'.iInner c'.reversible h'.H hf' hR'
  rw [ht] at e hv
  rw [ht'] at e' hv'
  have hK : 0 < c.H / (|m| * cp) := div_pos h.H (mul_pos (abs_pos.mpr hm) hc)
  have hlt : t'.effectiveResistance m cp < t.effectiveResistance m cp := by
    rw [e, e', hH]
    rcases h1.eq_or_lt with e1 | e1
    · subst e1
      exact coaxEff_wall hK hf hR' (hne.resolve_left (lt_irrefl _))
    · rcases h2.eq_or_lt with e2 | e2
      · rw [e2]; exact coaxEff_short hK hf e1 hR
      · exact (coaxEff_wall hK hf' hR' e2).trans (coaxEff_short hK hf e1 hR)
  refine ⟨hlt, ?_⟩
  intro zu zu' n n' Tin Tw hz hz' hT
  exact heat_of_effective hv' hv (by rw [← ht, ← ht']; exact hH.symm) hm hc (by rw [← ht']; exact hd') (by rw [← ht]; exact hd) hlt hz' hz hT

/-- **C150** (pipes).  A lower resistance of the outer pipe or a higher resistance between the inner and the outer pipes, or both, makes a better borehole: for every
length, every flow rate in either direction, and whether the fluid enters in the annulus or in the inner pipe. -/
theorem better_pipes (h : c.Physical) {f f' x x' : ℝ} (hf : 0 < f) (hx' : 0 ≤ x') (h1 : f ≤ f') (h2 : x' ≤ x) (hne : f < f' ∨ x' < x) {t t' : UTube}
    (ht : c.tube f x = some t) (ht' : c.tube f' x' = some t') {m cp : ℝ} (hm : m ≠ 0) (hc : 0 < cp) (hd : 0 < m ∨ c.reversible = true) : Better t t' m cp :=
  better_of h h rfl hf (hf.trans_le h1) (hx'.trans h2) hx' h1 (by linarith) (hne.imp_right fun e => by linarith) ht ht' hm hc hd hd

/-- **C150** (grout).  A more conductive grout around concentric pipes makes a better borehole, at every order of the multipoles. -/
theorem better_grout (h : c.Physical) (hz : c.pos = 0) {k : ℝ} (hk : c.kg < k) {f x : ℝ} (hf : 0 < f) (hx : 0 ≤ x) {t t' : UTube} (ht : c.tube f x = some t)
    (ht' : ({ c with kg := k } : Coax).tube f x = some t') {m cp : ℝ} (hm : m ≠ 0) (hc : 0 < cp) (hd : 0 < m ∨ c.reversible = true) : Better t t' m cp := by
  have hkg := h.kg
  have hlog : log (c.rb ^ 2 / (c.rb ^ 2 - ‖c.pos‖ ^ 2)) = 0 := by
    have : c.rb ^ 2 ≠ 0 := by have h1 := h.inside 0; have h2 := h.pos 0; have h3 := norm_nonneg c.pos; exact pow_ne_zero 2 (by linarith)
    rw [hz, norm_zero, show c.rb ^ 2 - 0 ^ 2 = c.rb ^ 2 by ring, div_self this, log_one]
  have hg : c.grout = 1 / (2 * π * c.kg) * log (c.rb / max (c.rOut 0) (c.rOut 1)) := by unfold Coax.grout; rw [hlog]; ring
  have hg' : ({ c with kg := k } : Coax).grout = 1 / (2 * π * k) * log (c.rb / max (c.rOut 0) (c.rOut 1)) := by
    unfold Coax.grout; dsimp only; rw [hlog]; ring
  have hpi := pi_pos
  have hlt : ({ c with kg := k } : Coax).grout < c.grout := by
    have hp := h.grout_pos
    rw [hg] at hp
    have hL : 0 < log (c.rb / max (c.rOut 0) (c.rOut 1)) := pos_of_mul_pos_right (by rwa [mul_comm] at hp) (by positivity)
    rw [hg, hg']
    apply mul_lt_mul_of_pos_right _ hL
    apply one_div_lt_one_div_of_lt (by positivity)
    apply mul_lt_mul_of_pos_left hk (by positivity)
  exact better_of (c' := { c with kg := k }) h ⟨h.radii, h.pos, h.inside, hkg.trans hk, h.ks, h.H, h.poles⟩ rfl hf hf hx hx le_rfl (by linarith) (Or.inr (by linarith)) ht ht' hm hc hd hd

/-- **C150** (limit).  However good the insulation between the pipes, the effective resistance stays above the local one, and above half of the length divided by the heat
capacity rate. -/
theorem coaxial_floor (h : c.Physical) {f x : ℝ} (hf : 0 < f) (hx : 0 ≤ x) {t : UTube} (ht : c.tube f x = some t) {m cp : ℝ} (hm : m ≠ 0) (hc : 0 < cp)
    (hd : 0 < m ∨ c.reversible = true) : x + c.grout < t.effectiveResistance m cp ∧ c.H / (2 * (|m| * cp)) < t.effectiveResistance m cp := by
  rw [h.tube_eq hx, Option.some.injEq] at ht
  have hR : 0 < x + c.grout := by have := h.grout_pos; linarith
  have hv := UTube.coaxial_valid c.iInner c.reversible h.H hf hR
  have e := coaxial_eff c.iInner c.reversible hf hR h.H hm hc hd
  have hb := (UTube.effective_bounds hv hm hc hd).1
  rw [e.1] at hb
  rw [ht] at hb e
  refine ⟨hb, ?_⟩
  rw [e.2]
  have hK : 0 < c.H / (|m| * cp) := div_pos h.H (mul_pos (abs_pos.mpr hm) hc)
  obtain ⟨K, hKd⟩ : ∃ K, K = c.H / (|m| * cp) := ⟨_, rfl⟩
  rw [show c.H / (2 * (|m| * cp)) = 1 / 2 * K by rw [hKd]; field_simp]
  rw [← hKd] at hK ⊢
  unfold coaxEff
  have s1 : 1 / 2 < √(1 / 4 + (x + c.grout) / f) := by
    rw [lt_sqrt (by norm_num)]
    have : 0 < (x + c.grout) / f := by positivity
    linarith
  have s2 : 0 < √(1 / 4 * (1 / (x + c.grout)) ^ 2 + 1 / f * (1 / (x + c.grout))) := sqrt_pos.mpr (by positivity)
  have s3 := one_lt_coth (mul_pos hK s2)
  apply mul_lt_mul s1 _ hK (sqrt_nonneg _)
  nlinarith

/-- Inner pipe of radius 2 cm in an outer pipe of radius 5 cm, given in this order, in a borehole of 150 m. -/
def sampleCoax : Coax := ⟨0, fun i => if i = 0 then 1 / 50 else 1 / 20, 3 / 40, 2, 1, 2, 150, true⟩

theorem sampleCoax_physical : sampleCoax.Physical := by
  refine ⟨?_, fun i => ?_, fun i => ?_, ?_, ?_, ?_, Or.inr rfl⟩
  · norm_num [sampleCoax]
  · fin_cases i <;> norm_num [sampleCoax]
  · fin_cases i <;> norm_num [sampleCoax]
  · norm_num [sampleCoax]
  · norm_num [sampleCoax]
  · norm_num [sampleCoax]

/-- Pipes off the axis, outer pipe first, with the line source resistances. -/
def sampleCoax' : Coax := ⟨1 / 100, fun i => if i = 0 then 1 / 20 else 1 / 50, 3 / 40, 2, 1, 0, 150, false⟩

theorem sampleCoax'_physical : sampleCoax'.Physical := by
  refine ⟨?_, fun i => ?_, fun i => ?_, ?_, ?_, ?_, Or.inl rfl⟩
  · norm_num [sampleCoax']
  · fin_cases i <;> norm_num [sampleCoax']
  · fin_cases i <;> norm_num [sampleCoax']
  · norm_num [sampleCoax']
  · norm_num [sampleCoax']
  · norm_num [sampleCoax']

example : ∃ t t', sampleCoax.tube (1 / 10) (1 / 20) = some t ∧ sampleCoax.tube (1 / 5) (1 / 30) = some t' ∧ Better t t' (-1 / 5) 4000 := by
  obtain ⟨-, t, ht, -⟩ := coaxial_defined sampleCoax_physical (f := 1 / 10) (x := 1 / 20) (by norm_num) (by norm_num)
  obtain ⟨-, t', ht', -⟩ := coaxial_defined sampleCoax_physical (f := 1 / 5) (x := 1 / 30) (by norm_num) (by norm_num)
  exact ⟨t, t', ht, ht', better_pipes sampleCoax_physical (by norm_num) (by norm_num) (by norm_num) (by norm_num) (Or.inl (by norm_num)) ht ht' (by norm_num) (by norm_num)
    (Or.inr rfl)⟩

example : ∃ t t', sampleCoax'.tube (1 / 10) (1 / 20) = some t ∧ sampleCoax'.tube (1 / 10) 0 = some t' ∧ Better t t' (1 / 5) 4000 := by
  obtain ⟨-, t, ht, -⟩ := coaxial_defined sampleCoax'_physical (f := 1 / 10) (x := 1 / 20) (by norm_num) (by norm_num)
  obtain ⟨-, t', ht', -⟩ := coaxial_defined sampleCoax'_physical (f := 1 / 10) (x := 0) (by norm_num) (by norm_num)
  exact ⟨t, t', ht, ht', better_pipes sampleCoax'_physical (by norm_num) (by norm_num) (by norm_num) (by norm_num) (Or.inr (by norm_num)) ht ht' (by norm_num) (by norm_num)
    (Or.inl (by norm_num))⟩

example : ∃ t t', sampleCoax.tube (1 / 10) (1 / 20) = some t ∧ ({ sampleCoax with kg := 2 } : Coax).tube (1 / 10) (1 / 20) = some t' ∧ Better t t' (-1 / 5) 4000 := by
  have h := sampleCoax_physical
  obtain ⟨-, t, ht, -⟩ := coaxial_defined h (f := 1 / 10) (x := 1 / 20) (by norm_num) (by norm_num)
  obtain ⟨-, t', ht', -⟩ := coaxial_defined (c := { sampleCoax with kg := 2 }) ⟨h.radii, h.pos, h.inside, by norm_num, h.ks, h.H, h.poles⟩ (f := 1 / 10) (x := 1 / 20)
    (by norm_num) (by norm_num)
  exact ⟨t, t', ht, ht', better_grout h rfl (by norm_num [sampleCoax]) (by norm_num) (by norm_num) ht ht' (by norm_num) (by norm_num) (Or.inr rfl)⟩

end Verif.Pipe
