import Verif.Pipe.SectionModel
import Verif.Pipe.RfpLemmas
import Verif.Pipe.PoleProps

/-!
# Property C149: a better pipe does not make a worse borehole (violated for long boreholes)

Single U-tubes with two equal pipes opposite to each other and the line source resistances (`J=0`), as functions of the fluid to outer pipe wall
resistance.
-/

noncomputable section

namespace Verif.Pipe

open Real Pole

/-- Two equal pipes on opposite sides of the axis, inside the borehole and apart from each other. -/
structure Pole.Sec.Opposite (s : Sec 2) : Prop where
  centre : s.z 1 = -s.z 0
  radius : s.r 1 = s.r 0
  pos : 0 < s.r 0
  apart : s.r 0 < ‖s.z 0‖
  inside : ‖s.z 0‖ + s.r 0 < s.rb
  kg : 0 < s.kg
  ks : 0 < s.ks

variable {s : Sec 2}

theorem Pole.Sec.Opposite.ok (h : s.Opposite) (x : ℝ) : (s.withRfp x).Ok := by
  have h0 := h.pos
  have h1 := h.apart
  have h2 := h.inside
  refine ⟨?_, h.kg.ne', fun i => ?_⟩
  · show 0 < s.rb; linarith
  · show ‖s.z i‖ < s.rb
    fin_cases i
    · show ‖s.z 0‖ < s.rb; linarith
    · show ‖s.z 1‖ < s.rb; rw [h.centre, norm_neg]; linarith

/-- Own resistance of a pipe without its wall. -/
def own (s : Sec 2) : ℝ := s.pikg * (log (s.rb / s.r 0) + s.sigma * log (s.rb ^ 2 / (s.rb ^ 2 - ‖s.z 0‖ ^ 2)))
/-- Resistance between the pipes. -/
def across (s : Sec 2) : ℝ := s.pikg * (log (s.rb / (2 * ‖s.z 0‖)) + s.sigma * log (s.rb ^ 2 / (s.rb ^ 2 + ‖s.z 0‖ ^ 2)))

theorem resist_sym (h : s.Opposite) (x : ℝ) : (s.withRfp x).resist 0 = !![own s + x, across s; across s, own s + x] := by
  have hpi : π ≠ 0 := pi_ne_zero
  have hkg := h.kg.ne'
  have hb : s.pikg * s.beta 0 = s.pikg * s.beta 0 := rfl
  have e1 : ‖s.z 0 - -s.z 0‖ = 2 * ‖s.z 0‖ := by rw [sub_neg_eq_add, ← two_mul, norm_mul]; simp
  have e1' : ‖-s.z 0 - s.z 0‖ = 2 * ‖s.z 0‖ := by rw [← e1, norm_sub_rev]
  have e2 : ‖(s.rb : ℂ) ^ 2 - (starRingEnd ℂ) (s.z 0) * -s.z 0‖ = s.rb ^ 2 + ‖s.z 0‖ ^ 2 := by
    rw [mul_neg, sub_neg_eq_add, mul_comm, Complex.mul_conj, Complex.normSq_eq_norm_sq, ← Complex.ofReal_pow, ← Complex.ofReal_add, Complex.norm_real,
      Real.norm_of_nonneg (by positivity)]
  have e2' : ‖(s.rb : ℂ) ^ 2 - (starRingEnd ℂ) (-s.z 0) * s.z 0‖ = s.rb ^ 2 + ‖s.z 0‖ ^ 2 := by
    rw [map_neg, ← e2]; congr 2; ring
  have e3 : 1 / (2 * π * s.kg) * (2 * π * s.kg * x) = x := by field_simp
  unfold Sec.resist
  rw [if_pos rfl, line_eq_R0 (h.ok x)]
  funext i j
  fin_cases i <;> fin_cases j
  · show s.pikg * (log (s.rb / s.r 0) + 2 * π * s.kg * x + s.sigma * log (s.rb ^ 2 / (s.rb ^ 2 - ‖s.z 0‖ ^ 2))) = own s + x
    unfold own Sec.pikg
    linear_combination e3
  · show s.pikg * (log (s.rb / ‖s.z 0 - s.z 1‖) + s.sigma * log (s.rb ^ 2 / ‖(s.rb : ℂ) ^ 2 - (starRingEnd ℂ) (s.z 0) * s.z 1‖)) = across s
    rw [h.centre, e1, e2]; rfl
  · show s.pikg * (log (s.rb / ‖s.z 1 - s.z 0‖) + s.sigma * log (s.rb ^ 2 / ‖(s.rb : ℂ) ^ 2 - (starRingEnd ℂ) (s.z 1) * s.z 0‖)) = across s
    rw [h.centre, e1', e2']; rfl
  · show s.pikg * (log (s.rb / s.r 1) + 2 * π * s.kg * x + s.sigma * log (s.rb ^ 2 / (s.rb ^ 2 - ‖s.z 1‖ ^ 2))) = own s + x
    rw [h.centre, h.radius, norm_neg]
    unfold own Sec.pikg
    linear_combination e3

theorem log_sigma {σ P Q : ℝ} (hσ : -1 < σ) (hQ : 1 < Q) (h : Q ≤ P) : 0 < log P + σ * log Q := by
  have h1 := log_pos hQ
  have h2 := log_le_log (by linarith) h
  nlinarith

/-- The line source matrix of two opposite pipes is positive definite. -/
theorem mutual_lt_own (h : s.Opposite) : |across s| < own s := by
  obtain ⟨D, hD⟩ : ∃ D, D = ‖s.z 0‖ := ⟨_, rfl⟩
  obtain ⟨r, hr⟩ : ∃ r, r = s.r 0 := ⟨_, rfl⟩
  obtain ⟨R, hR⟩ : ∃ R, R = s.rb := ⟨_, rfl⟩
  have h0 := h.pos
  have h1 := h.apart
  have h2 := h.inside
  have hkg := h.kg
  have hks := h.ks
  have hpk : 0 < s.pikg := by unfold Sec.pikg; positivity
  have hσ : -1 < s.sigma := by
    unfold Sec.sigma
    rw [lt_div_iff₀ (by linarith)]; linarith
  unfold across own
  rw [← hD, ← hr, ← hR] at *
  have hD0 : 0 < D := h0.trans h1
  have hR0 : 0 < R := by linarith
  have hm : 0 < R ^ 2 - D ^ 2 := by nlinarith
  have hp : 0 < R ^ 2 + D ^ 2 := by positivity
  have l1 : log (R / r) = log R - log r := log_div hR0.ne' h0.ne'
  have l2 : log (R ^ 2 / (R ^ 2 - D ^ 2)) = 2 * log R - log (R ^ 2 - D ^ 2) := by rw [log_div (by positivity) hm.ne', log_pow]; norm_num
  have l3 : log (R / (2 * D)) = log R - log (2 * D) := log_div hR0.ne' (by positivity)
  have l4 : log (R ^ 2 / (R ^ 2 + D ^ 2)) = 2 * log R - log (R ^ 2 + D ^ 2) := by rw [log_div (by positivity) hp.ne', log_pow]; norm_num
  have k1 : 0 < log (2 * D / r) + s.sigma * log ((R ^ 2 + D ^ 2) / (R ^ 2 - D ^ 2)) := by
    apply log_sigma hσ
    · rw [lt_div_iff₀ hm]; nlinarith
    · rw [div_le_div_iff₀ hm h0]
      rcases le_or_gt (3 * D ^ 2) (R ^ 2) with hc | hc
      · nlinarith
      · have a1 : R ^ 2 ≤ 2 * D * R + D ^ 2 := by nlinarith
        have a2 : (R ^ 2 + D ^ 2) * r ≤ (R ^ 2 + D ^ 2) * (R - D) := by nlinarith
        nlinarith
  have k2 : 0 < log (R ^ 2 / (2 * D * r)) + s.sigma * log (R ^ 2 * R ^ 2 / ((R ^ 2 + D ^ 2) * (R ^ 2 - D ^ 2))) := by
    have hpm : 0 < (R ^ 2 + D ^ 2) * (R ^ 2 - D ^ 2) := mul_pos hp hm
    apply log_sigma hσ
    · rw [lt_div_iff₀ hpm]
      have : 0 < D ^ 2 * D ^ 2 := by positivity
      nlinarith
    · rw [div_le_div_iff₀ hpm (by positivity)]
      have a1 : 2 * D * r ≤ (R + D) * (R - D) := by nlinarith
      have a2 : R ^ 2 * (2 * D * r) ≤ (R ^ 2 + D ^ 2) * ((R + D) * (R - D)) := by
        apply mul_le_mul (by nlinarith) a1 (by positivity) hp.le
      have : 0 < R ^ 2 := by positivity
      nlinarith
  rw [log_div (by positivity) h0.ne', log_div hp.ne' hm.ne'] at k1
  rw [log_div (by positivity) (by positivity), log_div (by positivity) (mul_pos hp hm).ne', log_mul (by positivity) h0.ne',
    log_mul hp.ne' hm.ne', log_mul (x := R ^ 2) (y := R ^ 2) (by positivity) (by positivity), log_pow] at k2
  push_cast at k2
  rw [l1, l2, l3, l4, abs_lt]
  constructor
  · have : s.pikg * (log R - log (2 * D) + s.sigma * (2 * log R - log (R ^ 2 + D ^ 2)))
        + s.pikg * (log R - log r + s.sigma * (2 * log R - log (R ^ 2 - D ^ 2))) = s.pikg * (2 * log R - (log (2 * D) + log r)
          + s.sigma * (2 * log R + 2 * log R - (log (R ^ 2 + D ^ 2) + log (R ^ 2 - D ^ 2)))) := by ring
    have := mul_pos hpk k2
    linarith
  · have : s.pikg * (log R - log r + s.sigma * (2 * log R - log (R ^ 2 - D ^ 2))) - s.pikg * (log R - log (2 * D) + s.sigma * (2 * log R - log (R ^ 2 + D ^ 2)))
        = s.pikg * (log (2 * D) - log r + s.sigma * (log (R ^ 2 + D ^ 2) - log (R ^ 2 - D ^ 2))) := by ring
    have := mul_pos hpk k1
    linarith

/-! ### The delta circuit -/

theorem delta_sym {A b : ℝ} (h : |b| < A) (H : ℝ) (rev : Bool) : ∃ Rd, delta !![A, b; b, A] = some Rd ∧
    (singleUTube Rd H rev).G 0 0 = 1 / (A + b) ∧ (singleUTube Rd H rev).G 1 1 = 1 / (A + b) ∧ (singleUTube Rd H rev).G 0 1 = b / (A ^ 2 - b ^ 2) ∧
    (singleUTube Rd H rev).G 1 0 = b / (A ^ 2 - b ^ 2) := by
  have hs := sq_pos_of h
  have hp : 0 < A + b := by have := neg_abs_le b; linarith
  have hm : 0 < A - b := by have := le_abs_self b; linarith
  have hdet : (!![A, b; b, A] : Matrix (Fin 2) (Fin 2) ℝ).det = A ^ 2 - b ^ 2 := by rw [Matrix.det_fin_two_of]; ring
  have hinv : (!![A, b; b, A] : Matrix (Fin 2) (Fin 2) ℝ)⁻¹ = !![A / (A ^ 2 - b ^ 2), -b / (A ^ 2 - b ^ 2); -b / (A ^ 2 - b ^ 2), A / (A ^ 2 - b ^ 2)] := by
    rw [Matrix.inv_def, hdet, Ring.inverse_eq_inv', Matrix.adjugate_fin_two_of]
    ext i j
    fin_cases i <;> fin_cases j <;> simp [div_eq_inv_mul]
  refine ⟨_, by unfold delta; rw [if_neg (by rw [hdet]; exact hs.ne')], ?_, ?_, ?_, ?_⟩
  all_goals
    unfold singleUTube recip conduct
    rw [hinv]
    simp [Fin.sum_univ_two]
  · field_simp; ring
  · field_simp; ring
  · ring
  · ring

/-- The U-tube of the cross-section at the resistance `x` of the pipes. -/
theorem symmetric_tube (h : s.Opposite) {H : ℝ} (hH : 0 < H) (rev : Bool) {x : ℝ} (hx : 0 ≤ x) : ∃ t, s.tube 0 H rev x = some t ∧ t.Valid ∧ t.H = H ∧
    t.reversible = rev ∧ t.localResistance = (own s + x + across s) / 2 ∧ (∀ m cp, t.eta m cp = units (across s) (H / (|m| * cp)) (own s + x)) ∧
    ∀ m cp, m ≠ 0 → 0 < cp → (0 < m ∨ rev = true) → t.effectiveResistance m cp = symEff (across s) (H / (|m| * cp)) (own s + x) := by
  have hab : |across s| < own s + x := (mutual_lt_own h).trans_le (by linarith)
  obtain ⟨A, hA⟩ : ∃ A, A = own s + x := ⟨_, rfl⟩
  obtain ⟨b, hb⟩ : ∃ b, b = across s := ⟨_, rfl⟩
  rw [← hA, ← hb] at hab ⊢
  obtain ⟨Rd, h1, g00, g11, g01, g10⟩ := delta_sym hab H rev
  have hs := sq_pos_of hab
  have hp : 0 < A + b := by have := neg_abs_le b; linarith
  have hm : 0 < A - b := by have := le_abs_self b; linarith
  have e : (A ^ 2 - b ^ 2) = (A + b) * (A - b) := by ring
  have hv : (singleUTube Rd H rev).Valid := by
    refine ⟨hH, fun i => ?_, ?_, ?_, ?_⟩
    · fin_cases i
      · show 0 ≤ (singleUTube Rd H rev).G 0 0; rw [g00]; positivity
      · show 0 ≤ (singleUTube Rd H rev).G 1 1; rw [g11]; positivity
    · rw [g00, g11]; positivity
    · rw [g01, g10]
    · rw [g00, g11, g01, e]
      have : 1 / (A + b) * (1 / (A + b)) + b / ((A + b) * (A - b)) * (1 / (A + b) + 1 / (A + b)) = 1 / ((A + b) * (A - b)) := by
        field_simp; ring
      rw [this]; positivity
  have hloc : (singleUTube Rd H rev).localResistance = (A + b) / 2 := by
    unfold UTube.localResistance
    rw [g00, g11]; field_simp; norm_num
  have hcirc : (singleUTube Rd H rev).circuit = 1 / √(A ^ 2 - b ^ 2) := by
    unfold UTube.circuit
    rw [g00, g11, g01, one_div √(A ^ 2 - b ^ 2), ← sqrt_inv, e]
    congr 1
    field_simp; ring
  have heta : ∀ m cp, (singleUTube Rd H rev).eta m cp = units b (H / (|m| * cp)) A := by
    intro m cp
    show (singleUTube Rd H rev).circuit * H / (|m| * cp) = units b (H / (|m| * cp)) A
    rw [hcirc]
    unfold units; ring
  refine ⟨singleUTube Rd H rev, ?_, hv, rfl, rfl, hloc, heta, ?_⟩
  · unfold Sec.tube Sec.resistances
    rw [resist_sym h x, ← hA, ← hb, h1]; rfl
  · intro m cp hm hc hd
    rw [UTube.effective_eta hv hm hc hd, hloc, heta]; rfl

/-- At the same flow rate, the borehole with the higher effective resistance exchanges less heat. -/
theorem heat_of_effective {t t' : UTube} (hv : t.Valid) (hv' : t'.Valid) (hH : t'.H = t.H) {m cp : ℝ} (hm : m ≠ 0) (hc : 0 < cp) (hd : 0 < m ∨ t.reversible = true)
    (hd' : 0 < m ∨ t'.reversible = true) (hlt : t.effectiveResistance m cp < t'.effectiveResistance m cp) {zu zu' : ℕ → ℝ} {n n' : ℕ} (hz : Edges zu n t.H)
    (hz' : Edges zu' n' t'.H) {Tin Tw : ℝ} (hT : Tin ≠ Tw) :
    |t'.fluidHeat zu' n' m cp Tin (fun _ => Tw)| < |t.fluidHeat zu n m cp Tin (fun _ => Tw)| := by
  have h1 := UTube.heat_from_resistance hv hm hc hd hz Tin Tw
  have h2 := UTube.heat_from_resistance hv' hm hc hd' hz' Tin Tw
  have hM : 0 < |m| * cp := mul_pos (abs_pos.mpr hm) hc
  have hR : 0 < t.effectiveResistance m cp := (UTube.localResistance_pos hv).trans (UTube.effective_bounds hv hm hc hd).1
  have hR' := hR.trans hlt
  have hH0 := hv.H
  rw [hH] at h2
  have k1 : t.effectiveResistance m cp / t.H < t'.effectiveResistance m cp / t.H := div_lt_div_of_pos_right hlt hH0
  have k3 : 0 < t.effectiveResistance m cp / t.H + 1 / (2 * (|m| * cp)) := by positivity
  rw [← eq_div_iff k3.ne'] at h1
  rw [← eq_div_iff (by linarith)] at h2
  rw [h1, h2]
  exact (UTube.ratio_lt hT k3 (by linarith)).2

/-! ### Properties -/

/-- **C149** (local resistance).  With the line source resistances, for any such geometry, the U-tube is defined for all resistances of the pipes, and
raising the resistance of the pipes raises the local borehole thermal resistance by half as much. -/
theorem local_follows_pipe (h : s.Opposite) {H : ℝ} (hH : 0 < H) (rev : Bool) {x x' : ℝ} (hx : 0 ≤ x) (hx' : 0 ≤ x') : ∃ t t', s.tube 0 H rev x = some t ∧
    s.tube 0 H rev x' = some t' ∧ t.Valid ∧ t'.Valid ∧ t'.localResistance - t.localResistance = (x' - x) / 2 := by
  obtain ⟨t, h1, hv, -, -, hl, -⟩ := symmetric_tube h hH rev hx
  obtain ⟨t', h1', hv', -, -, hl', -⟩ := symmetric_tube h hH rev hx'
  exact ⟨t, t', h1, h1', hv, hv', by rw [hl, hl']; ring⟩

/-- **C149** (the part that holds).  `R` is the matrix of `thermal_resistances`.  When the resistance between the pipes is negative or zero, or the borehole short
enough for `sinh (2η) / (2η) ≤ R[0,0] / R[0,1]`, a pipe of higher resistance raises the effective borehole thermal resistance and lowers the heat exchanged with
walls at a uniform temperature.  Missing: longer boreholes (`effective_falls`), and multipoles of order one or more. -/
theorem effective_follows_pipe_partial (h : s.Opposite) {H : ℝ} {rev : Bool} {x x' : ℝ} (hx : 0 ≤ x) (hlt : x < x') (hH : 0 < H) {t t' : UTube}
    (ht : s.tube 0 H rev x = some t) (ht' : s.tube 0 H rev x' = some t') {m cp : ℝ} (hm : m ≠ 0) (hc : 0 < cp) (hd : 0 < m ∨ rev = true)
    {R : Matrix (Fin 2) (Fin 2) ℝ} (hR : R = (s.withRfp x).resist 0) (hcond : R 0 1 * sinh (2 * t.eta m cp) ≤ 2 * t.eta m cp * R 0 0) :
    t.effectiveResistance m cp < t'.effectiveResistance m cp ∧
    ∀ {zu zu' : ℕ → ℝ} {n n' : ℕ} {Tin Tw : ℝ}, Edges zu n H → Edges zu' n' H → Tin ≠ Tw →
      |t'.fluidHeat zu' n' m cp Tin (fun _ => Tw)| < |t.fluidHeat zu n m cp Tin (fun _ => Tw)| := by
  obtain ⟨u, h1, hv, hH1, hr, hl, he, hf⟩ := symmetric_tube h hH rev hx
  obtain ⟨u', h1', hv', hH1', hr', hl', he', hf'⟩ := symmetric_tube h hH rev (hx.trans hlt.le)
  rw [h1, Option.some.injEq] at ht
  rw [h1', Option.some.injEq] at ht'
  subst ht ht'
  have hK : 0 < H / (|m| * cp) := div_pos hH (mul_pos (abs_pos.mpr hm) hc)
  rw [resist_sym h x] at hR
  have e0 : R 0 0 = own s + x := by rw [hR]; rfl
  have e1 : R 0 1 = across s := by rw [hR]; rfl
  rw [e0, e1, he] at hcond
  have hab : |across s| < own s + x := (mutual_lt_own h).trans_le (by linarith)
  have hlt' : u.effectiveResistance m cp < u'.effectiveResistance m cp := by
    rw [hf m cp hm hc hd, hf' m cp hm hc hd]
    exact symEff_lt hK hab (by linarith) hcond
  refine ⟨hlt', ?_⟩
  intro zu zu' n n' Tin Tw hz hz' hT
  exact heat_of_effective hv hv' (hH1'.trans hH1.symm) hm hc (by rwa [hr]) (by rwa [hr']) hlt' (by rwa [hH1]) (by rwa [hH1']) hT

/-- **C149** (violated).  When the resistance between the pipes is positive (pipes close to each other), above some length every borehole has a *lower* effective
resistance, and exchanges more heat, with the pipe of higher resistance. -/
theorem effective_falls (h : s.Opposite) {rev : Bool} {x x' : ℝ} (hx : 0 ≤ x) (hlt : x < x') (hpos : 0 < (s.withRfp x).resist 0 0 1) {m cp : ℝ} (hm : m ≠ 0)
    (hc : 0 < cp) (hd : 0 < m ∨ rev = true) : ∃ H0 : ℝ, ∀ H, H0 < H → 0 < H → ∃ t t', s.tube 0 H rev x = some t ∧ s.tube 0 H rev x' = some t' ∧
      t'.effectiveResistance m cp < t.effectiveResistance m cp ∧
      ∀ {zu zu' : ℕ → ℝ} {n n' : ℕ} {Tin Tw : ℝ}, Edges zu n H → Edges zu' n' H → Tin ≠ Tw →
        |t.fluidHeat zu n m cp Tin (fun _ => Tw)| < |t'.fluidHeat zu' n' m cp Tin (fun _ => Tw)| := by
  rw [resist_sym h x] at hpos
  replace hpos : 0 < across s := hpos
  have hab := mutual_lt_own h
  rw [abs_of_pos hpos] at hab
  obtain ⟨K0, hK0⟩ := symEff_gt hpos (A := own s + x) (A' := own s + x') (by linarith) (by linarith)
  have hM : 0 < |m| * cp := mul_pos (abs_pos.mpr hm) hc
  refine ⟨K0 * (|m| * cp), fun H hH0 hH => ?_⟩
  obtain ⟨u, h1, hv, hH1, hr, hl, he, hf⟩ := symmetric_tube h hH rev hx
  obtain ⟨u', h1', hv', hH1', hr', hl', he', hf'⟩ := symmetric_tube h hH rev (hx.trans hlt.le)
  have hlt' : u'.effectiveResistance m cp < u.effectiveResistance m cp := by
    rw [hf m cp hm hc hd, hf' m cp hm hc hd]
    exact hK0 _ (by rwa [lt_div_iff₀ hM]) (div_pos hH hM)
  refine ⟨u, u', h1, h1', hlt', ?_⟩
  intro zu zu' n n' Tin Tw hz hz' hT
  exact heat_of_effective hv' hv (hH1.trans hH1'.symm) hm hc (by rwa [hr']) (by rwa [hr]) hlt' (by rwa [hH1']) (by rwa [hH1]) hT

/-- Two pipes of radius 1.25 cm, 5 cm apart, in a borehole of radius 10 cm. -/
def closeSec : Sec 2 := ⟨fun i => if i = 0 then 1 / 40 else -1 / 40, fun _ => 1 / 80, 1 / 10, 1, 1, fun _ => 0⟩

theorem closeSec_opposite : closeSec.Opposite := by
  refine ⟨?_, rfl, ?_, ?_, ?_, ?_, ?_⟩ <;> norm_num [closeSec]

theorem closeSec_across : across closeSec = 1 / (2 * π) * log 2 := by
  unfold across Sec.pikg Sec.sigma
  norm_num [closeSec]

/-- **C149** (violated, a case).  A U-tube with a flow rate of 0.1 kg/s of a fluid of 4000 J/kg.K: for all lengths above some value, pipes with ten times the
resistance give a better borehole. -/
theorem worse_pipe_better_borehole : ∃ H0 : ℝ, ∀ H, H0 < H → 0 < H → ∃ t t', closeSec.tube 0 H true (1 / 20) = some t ∧ closeSec.tube 0 H true (1 / 2) = some t' ∧
    t'.effectiveResistance (1 / 10) 4000 < t.effectiveResistance (1 / 10) 4000 := by
  have hpos : 0 < (closeSec.withRfp (1 / 20)).resist 0 0 1 := by
    rw [resist_sym closeSec_opposite]
    show 0 < across closeSec
    rw [closeSec_across]
    have := log_pos (by norm_num : (1 : ℝ) < 2)
    positivity
  obtain ⟨H0, h⟩ := effective_falls closeSec_opposite (rev := true) (x := 1 / 20) (x' := 1 / 2) (by norm_num) (by norm_num) hpos (m := 1 / 10) (cp := 4000) (by norm_num)
    (by norm_num) (Or.inr rfl)
  exact ⟨H0, fun H h1 h2 => by obtain ⟨t, t', a, b, c, -⟩ := h H h1 h2; exact ⟨t, t', a, b, c⟩⟩

/-- Two pipes 10 cm apart in a borehole of radius 7.5 cm: the resistance between the pipes is negative, and the condition holds for all lengths and flow rates. -/
theorem sampleSec_opposite : sampleSec.Opposite := by
  refine ⟨?_, rfl, ?_, ?_, ?_, ?_, ?_⟩ <;> norm_num [sampleSec]

theorem sampleSec_across : across sampleSec < 0 := by
  have e : across sampleSec = 1 / (2 * π) * (log (3 / 4) + -1 / 3 * log (9 / 13)) := by
    unfold across Sec.pikg Sec.sigma
    norm_num [sampleSec]
  have h1 : log (9 / 13) = -log (13 / 9) := by rw [← log_inv]; norm_num
  have h2 : log (3 / 4) = -log (4 / 3) := by rw [← log_inv]; norm_num
  have h3 : log (13 / 9) < 3 * log (4 / 3) := by
    rw [show (3 : ℝ) * log (4 / 3) = log ((4 / 3) ^ 3) by rw [log_pow]; norm_num]
    exact log_lt_log (by norm_num) (by norm_num)
  rw [e, h1, h2]
  have : 0 < 1 / (2 * π) := by have := pi_pos; positivity
  exact mul_neg_of_pos_of_neg this (by linarith)

theorem sample_rises {t t' : UTube} (ht : sampleSec.tube 0 150 true (1 / 20) = some t) (ht' : sampleSec.tube 0 150 true (1 / 10) = some t') :
    t.effectiveResistance (1 / 5) 4000 < t'.effectiveResistance (1 / 5) 4000 := by
  obtain ⟨u, h1, hv, -, -, -, -, -⟩ := symmetric_tube sampleSec_opposite (H := 150) (by norm_num) true (x := 1 / 20) (by norm_num)
  rw [h1, Option.some.injEq] at ht
  subst ht
  have hη := UTube.eta_pos hv (m := 1 / 5) (cp := 4000) (by norm_num) (by norm_num)
  refine (effective_follows_pipe_partial sampleSec_opposite (by norm_num) (by norm_num) (by norm_num) h1 ht' (by norm_num) (by norm_num) (Or.inr rfl) rfl ?_).1
  rw [resist_sym sampleSec_opposite]
  show across sampleSec * sinh (2 * u.eta (1 / 5) 4000) ≤ 2 * u.eta (1 / 5) 4000 * (own sampleSec + 1 / 20)
  have ha := sampleSec_across
  have ho : 0 < own sampleSec := (abs_nonneg _).trans_lt (mutual_lt_own sampleSec_opposite)
  have hs : 0 < sinh (2 * u.eta (1 / 5) 4000) := sinh_pos_iff.mpr (by linarith)
  have h2 : 0 < 2 * u.eta (1 / 5) 4000 * (own sampleSec + 1 / 20) := by positivity
  nlinarith

end Verif.Pipe
