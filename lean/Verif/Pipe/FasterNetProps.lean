import Verif.Pipe.FlowProps
import Verif.Pipe.BetweenProps
import Verif.Pipe.InletNetProps
import Verif.Net.FasterProps

/-!
# Property C143 (single U-tubes and coaxial pipes in networks): a faster flow extracts more heat and lowers the effective resistance
-/

noncomputable section

namespace Verif.Pipe

namespace UTube

variable {t : UTube} (hv : t.Valid)

include hv in
/-- The ratio of the heat to the mean of the inlet and outlet temperatures, walls at zero, is half the length divided by the effective resistance. -/
theorem ratio_effective {m cp : ℝ} (hm : m ≠ 0) (hc : 0 < cp) (h : 0 < m ∨ t.reversible = true) :
    cp * (|m| * ((1 - (t.par m cp).outA) / (1 + (t.par m cp).outA))) = t.H / 2 / t.effectiveResistance m cp := by
  have hA := outA_lt hv hm hc
  have hd := abs_lt.mp (netPipe_damped hv hm hc (fun _ => 0) 1)
  have hd1 : -1 < (t.par m cp).outA := hd.1
  have hm' : 0 < |m| := abs_pos.mpr hm
  have hH := hv.H
  unfold effectiveResistance
  rw [heatA_single hv hm hc, sgn_eq_abs (h.imp_left le_of_lt)]
  generalize (t.par m cp).outA = a at *
  have h1 : 1 + a ≠ 0 := by linarith
  have h2 : a - 1 ≠ 0 := by linarith
  have h3 : |m| ≠ 0 := hm'.ne'
  field_simp
  ring

include hv in
/-- **C143** (boreholes).  A single U-tube or a coaxial borehole gains from a faster flow in the same direction. -/
theorem netPipe_faster {m m' cp : ℝ} (hc : 0 < cp) (hmm : m ≠ 0) (hmm' : m' ≠ 0) (h : 0 < m ∨ t.reversible = true) (h' : 0 < m' ∨ t.reversible = true) (hlt : |m| < |m'|)
    (h12 : 0 ≤ t.G 0 1) {zu : ℕ → ℝ} {n : ℕ} (hz : Edges zu n t.H) : (t.netPipe zu n).Faster m m' cp ∧ (t.netPipe zu n).Gains m m' cp := by
  have hf : t.Faster m cp m' cp := ⟨hmm, hmm', hc, hc, h, h', mul_lt_mul_of_pos_right hlt hc⟩
  have hA' := outA_lt hv hmm' hc
  have hA := outA_lt hv hmm hc
  have hR := effective_flow hv hf
  have hR' : 0 < t.effectiveResistance m' cp := (localResistance_pos hv).trans (effective_bounds hv hmm' hc h').1
  have hg : (t.netPipe zu n).Gains m m' cp := by
    show |m| * ((1 - (t.par m cp).outA) / (1 + (t.par m cp).outA)) < |m'| * ((1 - (t.par m' cp).outA) / (1 + (t.par m' cp).outA))
    rw [← mul_lt_mul_iff_right₀ hc, ratio_effective hv hmm hc h, ratio_effective hv hmm' hc h']
    exact div_lt_div_of_pos_left (by linarith [hv.H]) hR' hR
  refine ⟨⟨(netPipe_weighted hv hmm hc hz h12).inlet, hA', ?_, hg.le⟩, hg⟩
  have ho := (outlet_flow hv hf hz hz (Tin := 1) (Tw := 0) one_ne_zero).2
  have e : ∀ m : ℝ, t.outletT zu n m cp 1 (fun _ => 0) = (t.par m cp).outA := fun m => by simp [outletT, UPar.outletT]
  rw [e, e, abs_of_neg (by linarith), abs_of_neg (by linarith)] at ho
  show (t.par m cp).outA ≤ (t.par m' cp).outA
  linarith

end UTube

open Net

variable {n : ℕ} {ns : Fin n → ℕ} {conn : Option (List ℤ)} {t : Topology}

theorem format_cp {m cp : List ℝ} {f : Formatted} (hf : format t m cp = .ok f) : formatCp t.nInlets cp = .ok f.cp := by
  unfold format at hf
  cases h1 : formatFlow t.nInlets m with
  | error e => rw [h1] at hf; simp at hf
  | ok l =>
    rw [h1] at hf
    cases h3 : formatCp t.nInlets cp with
    | error e => rw [h3] at hf; simp only at hf; split_ifs at hf
    | ok c =>
      rw [h3] at hf
      simp only at hf
      split_ifs at hf <;> (rw [Except.ok.injEq] at hf; rw [← hf])

theorem flow_somewhere {f : Formatted} {i : ℕ} (hm : mBore t f i ≠ 0) : (f.mIn.map abs).sum ≠ 0 := by
  have hmem : mBore t f i ∈ f.mIn := by
    unfold mBore at hm ⊢
    rw [List.getD_eq_getElem?_getD] at hm ⊢
    cases hk : f.mIn[t.iCircuit.getD i 0]? with
    | none => rw [hk] at hm; exact absurd rfl hm
    | some v => exact List.mem_of_getElem? hk
  have h1 : |mBore t f i| ≤ (f.mIn.map abs).sum := List.single_le_sum (fun a ha => by
    obtain ⟨b, -, rfl⟩ := List.mem_map.mp ha
    exact abs_nonneg b) _ (List.mem_map_of_mem hmem)
  have := abs_pos.mpr hm
  linarith

/-- Specification: the boreholes of a network are valid single U-tubes or coaxial boreholes, cut into segments, whose pipes exchange heat through a non-negative conductance; the fluid flows through
all of them at the given rates, downwards or in the other direction if the objects reverse the flow. -/
structure TubeField (u : Fin n → UTube) (zu : Fin n → ℕ → ℝ) (ns : Fin n → ℕ) (t : Topology) (f : Formatted) : Prop where
  valid : ∀ i, (u i).Valid
  shunt : ∀ i, 0 ≤ (u i).G 0 1
  edges : ∀ i, Edges (zu i) (ns i) (u i).H
  flow : ∀ i : Fin n, mBore t f i ≠ 0
  dir : ∀ i : Fin n, 0 < mBore t f i ∨ (u i).reversible = true

/-- The pipes of the field as seen by the network. -/
def tubes (u : Fin n → UTube) (zu : Fin n → ℕ → ℝ) (ns : Fin n → ℕ) (i : Fin n) : Net.Pipe (ns i) := (u i).netPipe (zu i) (ns i)

theorem tubes_faster {u : Fin n → UTube} {zu : Fin n → ℕ → ℝ} {f f' : Formatted} (hu : TubeField u zu ns t f) (hu' : TubeField u zu ns t f') (hpos : 0 < f.cp)
    (hm : ∀ i : Fin n, mBore t f' i = mBore t f i ∨ |mBore t f i| < |mBore t f' i|) (i : Fin n) :
    (tubes u zu ns i).Faster (mBore t f i) (mBore t f' i) f.cp ∧ (|mBore t f i| < |mBore t f' i| → (tubes u zu ns i).Gains (mBore t f i) (mBore t f' i) f.cp) := by
  rcases hm i with he | hlt
  · rw [he]
    exact ⟨⟨(UTube.netPipe_weighted (hu.valid i) (hu.flow i) hpos (hu.edges i) (hu.shunt i)).inlet, UTube.outA_lt (hu.valid i) (hu.flow i) hpos, le_rfl, le_rfl⟩, fun h => absurd h (lt_irrefl _)⟩
  · have := UTube.netPipe_faster (hu.valid i) hpos (hu.flow i) (hu'.flow i) (hu.dir i) (hu'.dir i) hlt (hu.shunt i) (hu.edges i)
    exact ⟨this.1, fun _ => this.2⟩

/-- **C143** (heat).  If the flow rates of some circuits of a network of single U-tubes and coaxial boreholes are raised, in the same direction, the network extracts more heat from uniform
walls, whatever the other circuits. -/
theorem tubes_heat (h : construct n conn = .ok t) {u : Fin n → UTube} {zu : Fin n → ℕ → ℝ} {m m' cp : List ℝ} {f f' : Formatted} (hf : format t m cp = .ok f) (hf' : format t m' cp = .ok f')
    (hrev : f'.rev = f.rev) (hpos : 0 < f.cp) (hu : TubeField u zu ns t f) (hu' : TubeField u zu ns t f')
    (hm : ∀ i : Fin n, mBore t f' i = mBore t f i ∨ |mBore t f i| < |mBore t f' i|) (hex : ∃ i : Fin n, (i : ℕ) ∈ flowOutlets t f ∧ |mBore t f i| < |mBore t f' i|)
    {Tin Tw : ℝ} (hT : Tin ≠ Tw) :
    ∃ ki ki', netInlet t (tubes u zu ns) f = some ki ∧ netInlet t (tubes u zu ns) f' = some ki' ∧
      |(netHeat (fluidHeat t (tubes u zu ns) f ki)).eval Tin (fun _ => Tw) ()| < |(netHeat (fluidHeat t (tubes u zu ns) f' ki')).eval Tin (fun _ => Tw) ()| := by
  have hcp : f'.cp = f.cp := by
    have h1 := format_cp hf'
    rw [format_cp hf, Except.ok.injEq] at h1
    exact h1.symm
  obtain ⟨ki, -, hki, -, -⟩ := network_temperatures h (tubes u zu ns) f
  obtain ⟨ki', -, hki', -, -⟩ := network_temperatures h (tubes u zu ns) f'
  have hft := tubes_faster hu hu' hpos hm
  obtain ⟨i, hi, hlt⟩ := hex
  exact ⟨ki, ki', hki, hki', (network_faster_heat h (tubes u zu ns) f f' hrev hcp hpos (format_ok hf).1 (format_ok hf').1 (fun i => (hft i).1)
    (fun i => (UTube.netPipe_equilibrium (hu.valid i) (hu.flow i) hpos (hu.edges i)).1)
    (fun i => (UTube.netPipe_equilibrium (hu'.valid i) (hu'.flow i) (hcp ▸ hpos) (hu'.edges i)).1) hki hki' Tin Tw).2.2 hT ⟨i, hi, (hft i).2 hlt⟩⟩

/-- **C143** (resistance).  Multiplying all flow rates given to a network of single U-tubes and coaxial boreholes by a factor larger than one lowers its effective resistance. -/
theorem tubes_resistance (h : construct n conn = .ok t) {u : Fin n → UTube} {zu : Fin n → ℕ → ℝ} {m cp : List ℝ} {f : Formatted} (hf : format t m cp = .ok f) (ha : Aligned t f)
    (hpos : 0 < f.cp) (hu : TubeField u zu ns t f) {r : ℝ} (hr : 1 < r) {Htot : ℝ} (hH : 0 < Htot) :
    ∃ f' ki ko ki' ko', format t (m.map (r * ·)) cp = .ok f' ∧ netInlet t (tubes u zu ns) f = some ki ∧ netOutlet t (tubes u zu ns) f = some ko ∧
      netInlet t (tubes u zu ns) f' = some ki' ∧ netOutlet t (tubes u zu ns) f' = some ko' ∧
      0 < netResistance Htot (netMixed (mixing (flowOutlets t f') f'.mIn) ko') (netHeat (fluidHeat t (tubes u zu ns) f' ki')) ∧
      netResistance Htot (netMixed (mixing (flowOutlets t f') f'.mIn) ko') (netHeat (fluidHeat t (tubes u zu ns) f' ki'))
        < netResistance Htot (netMixed (mixing (flowOutlets t f) f.mIn) ko) (netHeat (fluidHeat t (tubes u zu ns) f ki)) := by
  have hr0 : (0 : ℝ) < r := by linarith
  obtain ⟨ki, ko, hki, hko, -⟩ := network_temperatures h (tubes u zu ns) f
  obtain ⟨ki', ko', hki', hko', -⟩ := network_temperatures h (tubes u zu ns) (f.scale r)
  have hlt : ∀ i : Fin n, |mBore t f i| < |mBore t (f.scale r) i| := fun i => by
    rw [mBore_scale, abs_mul, abs_of_pos hr0]
    exact lt_mul_of_one_lt_left (abs_pos.mpr (hu.flow i)) hr
  have hu' : TubeField u zu ns t (f.scale r) := ⟨hu.valid, hu.shunt, hu.edges, fun i => by rw [mBore_scale]; exact mul_ne_zero hr0.ne' (hu.flow i), fun i => by
    rw [mBore_scale]
    exact (hu.dir i).imp_left (mul_pos hr0)⟩
  have hft := tubes_faster hu hu' hpos fun i => Or.inr (hlt i)
  have hS : (f.mIn.map abs).sum ≠ 0 := by
    obtain ⟨-, -, hvv, -⟩ := construct_ok h
    exact flow_somewhere (hu.flow ⟨0, hvv.pos⟩)
  refine ⟨f.scale r, ki, ko, ki', ko', by rw [format_scale hr0, hf]; rfl, hki, hko, hki', hko', ?_⟩
  exact network_faster_resistance h (tubes u zu ns) f hr hpos (format_ok hf).1 hS ha (fun i => by have := (hft i).1; rw [mBore_scale] at this; exact this)
    (fun i _ => by have := (hft i).2 (hlt i); rw [mBore_scale] at this; exact this) hki hko hki' hko' hH

/-- The heat extracted by two boreholes in parallel, inlet at one and walls at zero. -/
theorem parallel_heat {ns : Fin 2 → ℕ} {p : (i : Fin 2) → Net.Pipe (ns i)} {f : Formatted} (hrev : f.rev = false) (hlen : f.mIn.length = 2)
    {ki : Coef (Fin 2) ns} (hki : netInlet ⟨2, [-1, -1], 2, 2, [0, 1], [0, 1], [0, 1]⟩ p f = some ki) (hu : ∀ i, boreA ⟨2, [-1, -1], 2, 2, [0, 1], [0, 1], [0, 1]⟩ p f i
      + ∑ s, boreB ⟨2, [-1, -1], 2, 2, [0, 1], [0, 1], [0, 1]⟩ p f i s = 1) :
    (netHeat (fluidHeat ⟨2, [-1, -1], 2, 2, [0, 1], [0, 1], [0, 1]⟩ p f ki)).aIn ()
      = -(f.cp * (|f.mIn.getD 0 0| * (1 - (p 0).outA (f.mIn.getD 0 0) f.cp)) + f.cp * (|f.mIn.getD 1 0| * (1 - (p 1).outA (f.mIn.getD 1 0) f.cp))) := by
  obtain ⟨t, ht⟩ : ∃ t : Topology, t = ⟨2, [-1, -1], 2, 2, [0, 1], [0, 1], [0, 1]⟩ := ⟨_, rfl⟩
  have h : construct 2 (some [-1, -1]) = .ok t := by rw [ht]; rfl
  rw [← ht] at hki hu ⊢
  obtain ⟨k2, ko, h2, hko, hs⟩ := network_temperatures h p f
  rw [hki, Option.some.injEq] at h2
  subst h2
  obtain ⟨hsol, -⟩ := hs 1 0
  have hq := uniform_heat h p f (by rw [hlen, ht]) hu hki hko 1 0
  have e : (netHeat (fluidHeat t p f ki)).eval 1 (fun _ => 0) () = (netHeat (fluidHeat t p f ki)).aIn () := by
    unfold Coef.eval
    simp [Matrix.mulVec, dotProduct]
  have ho : flowOutlets t f = [0, 1] := by rw [ht]; simp [flowOutlets, hrev]
  have hin : flowInlets t f = [0, 1] := by rw [ht]; simp [flowInlets, hrev]
  have hy : ∀ i : Fin 2, ko.eval 1 0 i = (p i).outA (mBore t f i) f.cp := fun i => by
    rw [hsol.model i, hsol.inlet i ((flowInlets_iff h f i).mp (by rw [hin]; fin_cases i <;> simp))]
    simp [boreA]
  rw [← e, hq, ho, Fin.sum_univ_two, hy, hy]
  have hm0 : mBore t f ((0 : Fin 2) : ℕ) = f.mIn.getD 0 0 := by rw [ht]; rfl
  have hm1 : mBore t f ((1 : Fin 2) : ℕ) = f.mIn.getD 1 0 := by rw [ht]; rfl
  rw [hm0, hm1]
  simp only [Fin.val_zero, Fin.val_one, List.mem_cons, true_or, or_true, if_true, List.not_mem_nil, or_false, one_ne_zero]
  ring

/-- A borehole of 1 m with the circuit of the sample. -/
def short : UTube := (UTube.sample true).withLength 1

theorem short_valid : short.Valid := UTube.withLength_valid (UTube.sample_valid true) one_pos

theorem sample_edges {H : ℝ} (hH : 0 < H) : Edges (fun k => if k = 0 then 0 else H) 1 H :=
  ⟨by norm_num, by simp, by simp, fun i j hij _ => by
    split_ifs with h1 h2
    · exact le_rfl
    · exact hH.le
    · omega
    · exact le_rfl⟩

/-- The heat extracted by the sample borehole, and the bounds on that of a borehole of 1 m. -/
theorem sample_heat : 500 ≤ 4000 * (|(1 / 4 : ℝ)| * (1 - ((UTube.sample true).par (1 / 4) 4000).outA)) ∧
    ∀ m : ℝ, 0 < m → 0 < 4000 * (|m| * (1 - (short.par m 4000).outA)) ∧ 4000 * (|m| * (1 - (short.par m 4000).outA)) ≤ 10 := by
  have hloc : (UTube.sample true).localResistance = 1 / 10 := by norm_num [UTube.localResistance, UTube.sample, singleUTube]
  have key : ∀ (u : UTube), u.Valid → 0 ≤ u.G 0 1 → ∀ m : ℝ, 0 < m → 0 ≤ (u.par m 4000).outA ∧ (u.par m 4000).outA < 1 ∧
      4000 * (|m| * (1 - (u.par m 4000).outA)) = u.H / 2 / u.effectiveResistance m 4000 * (1 + (u.par m 4000).outA) := fun u hu h12 m hm => by
    have h1 := UTube.outA_lt hu hm.ne' (show (0 : ℝ) < 4000 by norm_num)
    have h0 := (UTube.netPipe_weighted hu hm.ne' (show (0 : ℝ) < 4000 by norm_num) (sample_edges hu.H) h12).inlet
    have h0' : 0 ≤ (u.par m 4000).outA := h0
    refine ⟨h0', h1, ?_⟩
    rw [← UTube.ratio_effective hu hm.ne' (by norm_num) (Or.inl hm)]
    have : 1 + (u.par m 4000).outA ≠ 0 := by linarith
    field_simp
  constructor
  · obtain ⟨a0, a1, e⟩ := key (UTube.sample true) (UTube.sample_valid true) (by norm_num [UTube.sample, singleUTube]) (1 / 4) (by norm_num)
    have hb := UTube.effective_bounds (UTube.sample_valid true) (m := 1 / 4) (cp := 4000) (by norm_num) (by norm_num) (Or.inr rfl)
    rw [hloc] at hb
    have hη : (UTube.sample true).eta (1 / 4) 4000 ^ 2 = 45 / 100 := by
      unfold UTube.eta UTube.circuit
      rw [div_pow, mul_pow, Real.sq_sqrt (by norm_num [UTube.sample, singleUTube])]
      norm_num [UTube.sample, singleUTube]
    rw [hη] at hb
    have hr := UTube.ratio_effective (UTube.sample_valid true) (m := 1 / 4) (cp := 4000) (by norm_num) (by norm_num) (Or.inr rfl)
    have hH : (UTube.sample true).H = 100 := rfl
    rw [hH] at e hr
    have hlow : 400 ≤ 100 / 2 / (UTube.sample true).effectiveResistance (1 / 4) 4000 := by
      rw [le_div_iff₀ (by linarith [hb.1])]
      nlinarith [hb.2]
    rw [abs_of_pos (by norm_num)] at e hr ⊢
    rw [← hr] at hlow
    generalize ((UTube.sample true).par (1 / 4) 4000).outA = a at *
    have h2 : (0 : ℝ) < 1 + a := by linarith
    have h3 : 4000 * (1 / 4 * ((1 - a) / (1 + a))) = 1000 * (1 - a) / (1 + a) := by ring
    rw [h3, le_div_iff₀ h2] at hlow
    linarith
  · intro m hm
    obtain ⟨a0, a1, e⟩ := key short short_valid (by norm_num [short, UTube.withLength, UTube.sample, singleUTube]) m hm
    have hb := UTube.effective_bounds short_valid (m := m) (cp := 4000) hm.ne' (by norm_num) (Or.inr rfl)
    have hl : short.localResistance = 1 / 10 := hloc
    rw [hl] at hb
    have hH : short.H = 1 := rfl
    rw [hH] at e
    refine ⟨mul_pos (by norm_num) (mul_pos (abs_pos.mpr hm.ne') (by linarith)), ?_⟩
    rw [e]
    have h5 : 1 / 2 / short.effectiveResistance m 4000 ≤ 5 := by
      rw [div_le_iff₀ (by linarith [hb.1])]
      linarith [hb.1]
    have h6 : 0 ≤ 1 / 2 / short.effectiveResistance m 4000 := div_nonneg (by norm_num) (by linarith [hb.1])
    nlinarith

/-- **C143** (why the same proportion).  Raising the flow rate of one circuit only may raise the effective resistance of the network: a borehole of 100 m and one of 1 m in parallel, when the
flow rate of the short one is doubled. -/
theorem uneven_fails : ∃ (u : Fin 2 → UTube) (t : Topology) (f f' : Formatted) (ki ko ki' ko' : Coef (Fin 2) fun _ => 1), construct 2 (some [-1, -1]) = .ok t ∧
    format t [1 / 4, 1 / 4] [4000] = .ok f ∧ format t [1 / 4, 1 / 2] [4000] = .ok f' ∧ TubeField u (fun i k => if k = 0 then 0 else (u i).H) (fun _ => 1) t f ∧ Aligned t f ∧ Aligned t f' ∧
    netInlet t (tubes u (fun i k => if k = 0 then 0 else (u i).H) fun _ => 1) f = some ki ∧ netOutlet t (tubes u (fun i k => if k = 0 then 0 else (u i).H) fun _ => 1) f = some ko ∧
    netInlet t (tubes u (fun i k => if k = 0 then 0 else (u i).H) fun _ => 1) f' = some ki' ∧ netOutlet t (tubes u (fun i k => if k = 0 then 0 else (u i).H) fun _ => 1) f' = some ko' ∧
    netResistance 101 (netMixed (mixing (flowOutlets t f) f.mIn) ko) (netHeat (fluidHeat t (tubes u (fun i k => if k = 0 then 0 else (u i).H) fun _ => 1) f ki))
      < netResistance 101 (netMixed (mixing (flowOutlets t f') f'.mIn) ko') (netHeat (fluidHeat t (tubes u (fun i k => if k = 0 then 0 else (u i).H) fun _ => 1) f' ki')) := by
  obtain ⟨t, ht⟩ : ∃ t : Topology, t = ⟨2, [-1, -1], 2, 2, [0, 1], [0, 1], [0, 1]⟩ := ⟨_, rfl⟩
  obtain ⟨f, hf⟩ : ∃ f : Formatted, f = ⟨[1 / 4, 1 / 4], false, 4000⟩ := ⟨_, rfl⟩
  obtain ⟨f', hf'⟩ : ∃ f : Formatted, f = ⟨[1 / 4, 1 / 2], false, 4000⟩ := ⟨_, rfl⟩
  obtain ⟨u, hu⟩ : ∃ u : Fin 2 → UTube, u = fun i => if i = 0 then UTube.sample true else short := ⟨_, rfl⟩
  have h : construct 2 (some [-1, -1]) = .ok t := by rw [ht]; rfl
  obtain ⟨p, hp⟩ : ∃ p : (i : Fin 2) → Net.Pipe 1, p = tubes u (fun i k => if k = 0 then 0 else (u i).H) fun _ => 1 := ⟨_, rfl⟩
  have hval : ∀ i, (u i).Valid := fun i => by
    rw [hu]
    dsimp only
    split_ifs
    · exact UTube.sample_valid true
    · exact short_valid
  have hG : ∀ i, 0 ≤ (u i).G 0 1 := fun i => by
    rw [hu]
    dsimp only
    split_ifs <;> norm_num [short, UTube.withLength, UTube.sample, singleUTube]
  have hrv : ∀ i, (u i).reversible = true := fun i => by
    rw [hu]
    dsimp only
    split_ifs <;> rfl
  have hfield : ∀ g : Formatted, (∀ i : Fin 2, mBore t g i ≠ 0) → TubeField u (fun i k => if k = 0 then 0 else (u i).H) (fun _ => 1) t g := fun g hg =>
    ⟨hval, hG, fun i => sample_edges (hval i).H, hg, fun i => Or.inr (hrv i)⟩
  have hm : ∀ i : Fin 2, mBore t f i ≠ 0 := fun i => by
    rw [ht, hf]
    fin_cases i <;> norm_num [mBore]
  have hm' : ∀ i : Fin 2, mBore t f' i ≠ 0 := fun i => by
    rw [ht, hf']
    fin_cases i <;> norm_num [mBore]
  have hal : ∀ g : Formatted, g.rev = false → Aligned t g := fun g hg k o hk => by
    rw [ht] at hk ⊢
    simp only [flowOutlets, hg, Bool.false_eq_true, if_false] at hk
    rcases k with _ | _ | k
    · simp only [List.getElem?_cons_zero, Option.some.injEq] at hk
      subst hk; rfl
    · simp only [List.getElem?_cons_succ, List.getElem?_cons_zero, Option.some.injEq] at hk
      subst hk; rfl
    · simp at hk
  obtain ⟨ki, ko, hki, hko, -⟩ := network_temperatures h p f
  obtain ⟨ki', ko', hki', hko', -⟩ := network_temperatures h p f'
  refine ⟨u, t, f, f', ki, ko, ki', ko', h, ?_, ?_, hfield f hm, hal f (by rw [hf]), hal f' (by rw [hf']), by rw [← hp]; exact hki, by rw [← hp]; exact hko, by rw [← hp]; exact hki',
    by rw [← hp]; exact hko', ?_⟩
  · rw [ht, hf]; norm_num [format, formatFlow, formatCp]
  · rw [ht, hf']; norm_num [format, formatFlow, formatCp]
  rw [← hp]
  have huni : ∀ g : Formatted, g.cp = 4000 → (∀ i : Fin 2, mBore t g i ≠ 0) → ∀ i, boreA t p g i + ∑ s, boreB t p g i s = 1 := fun g hg hmg i => by
    rw [hp]
    exact (UTube.netPipe_equilibrium (hval i) (hmg i) (by rw [hg]; norm_num) (sample_edges (hval i).H)).1
  have q1 := parallel_heat (p := p) (f := f) (ki := ki) (by rw [hf]) (by rw [hf]; rfl) (by rw [← ht]; exact hki) (by rw [← ht]; exact huni f (by rw [hf]) hm)
  have q2 := parallel_heat (p := p) (f := f') (ki := ki') (by rw [hf']) (by rw [hf']; rfl) (by rw [← ht]; exact hki') (by rw [← ht]; exact huni f' (by rw [hf']) hm')
  rw [← ht] at q1 q2
  obtain ⟨s1, s2⟩ := sample_heat
  obtain ⟨a1, a2⟩ := s2 (1 / 4) (by norm_num)
  obtain ⟨b1, b2⟩ := s2 (1 / 2) (by norm_num)
  have p0 : ∀ m : ℝ, (p 0).outA m 4000 = ((UTube.sample true).par m 4000).outA := fun m => by rw [hp, tubes, hu]; rfl
  have p1 : ∀ m : ℝ, (p 1).outA m 4000 = (short.par m 4000).outA := fun m => by rw [hp, tubes, hu]; rfl
  have g1 : f.mIn.getD 0 0 = 1 / 4 ∧ f.mIn.getD 1 0 = 1 / 4 ∧ f.cp = 4000 := by rw [hf]; exact ⟨rfl, rfl, rfl⟩
  have g2 : f'.mIn.getD 0 0 = 1 / 4 ∧ f'.mIn.getD 1 0 = 1 / 2 ∧ f'.cp = 4000 := by rw [hf']; exact ⟨rfl, rfl, rfl⟩
  rw [g1.1, g1.2.1, g1.2.2, p0, p1] at q1
  rw [g2.1, g2.2.1, g2.2.2, p0, p1] at q2
  have l1 : (f.mIn.map abs).sum = 1 / 2 := by rw [hf]; norm_num [abs_of_pos]
  have l2 : (f'.mIn.map abs).sum = 3 / 4 := by rw [hf']; norm_num [abs_of_pos]
  obtain ⟨A, hA⟩ : ∃ A, A = 4000 * (|(1 / 4 : ℝ)| * (1 - ((UTube.sample true).par (1 / 4) 4000).outA)) := ⟨_, rfl⟩
  obtain ⟨B, hB⟩ : ∃ B, B = 4000 * (|(1 / 4 : ℝ)| * (1 - (short.par (1 / 4) 4000).outA)) := ⟨_, rfl⟩
  obtain ⟨B', hB'⟩ : ∃ B, B = 4000 * (|(1 / 2 : ℝ)| * (1 - (short.par (1 / 2) 4000).outA)) := ⟨_, rfl⟩
  rw [← hA] at s1 q1 q2
  rw [← hB] at a1 a2 q1
  rw [← hB'] at b1 b2 q2
  rw [resistance_conductance h p f (by rw [hf, ht]; rfl) (by rw [l1]; norm_num) (hal f (by rw [hf])) (by rw [hf]; norm_num) hki hko 101 (A + B) (by linarith) q1,
    resistance_conductance h p f' (by rw [hf', ht]; rfl) (by rw [l2]; norm_num) (hal f' (by rw [hf'])) (by rw [hf']; norm_num) hki' hko' 101 (A + B') (by linarith) q2, l1, l2, g1.2.2, g2.2.2]
  have hdiff : 1 / (A + B) - 1 / (A + B') ≤ 10 / 250000 := by
    rw [div_sub_div _ _ (by linarith) (by linarith), div_le_div_iff₀ (by nlinarith) (by norm_num)]
    have : 250000 ≤ (A + B) * (A + B') := by nlinarith
    nlinarith
  norm_num at hdiff ⊢
  linarith

/-- Non-vacuity of the theorems: three boreholes in two circuits, one of them a series of two, water flowing in the reversed direction. -/
example : ∃ (t : Topology) (f f' : Formatted) (ki ki' : Coef (Fin 3) fun _ => 2), construct 3 (some [-1, 0, -1]) = .ok t ∧ format t [-1 / 4, -1 / 5] [4000] = .ok f ∧
    format t [-1 / 2, -1 / 5] [4000] = .ok f' ∧
    |(netHeat (fluidHeat t (tubes (fun _ => UTube.sample true) (fun _ k => 50 * (k : ℝ)) fun _ => 2) f ki)).eval 5 (fun _ => 12) ()|
      < |(netHeat (fluidHeat t (tubes (fun _ => UTube.sample true) (fun _ k => 50 * (k : ℝ)) fun _ => 2) f' ki')).eval 5 (fun _ => 12) ()| := by
  obtain ⟨t, ht⟩ : ∃ t : Topology, t = ⟨3, [-1, 0, -1], 2, 2, [0, 2], [1, 2], [0, 0, 1]⟩ := ⟨_, rfl⟩
  obtain ⟨f, hf⟩ : ∃ f : Formatted, f = ⟨[-1 / 4, -1 / 5], true, 4000⟩ := ⟨_, rfl⟩
  obtain ⟨f', hf'⟩ : ∃ f : Formatted, f = ⟨[-1 / 2, -1 / 5], true, 4000⟩ := ⟨_, rfl⟩
  have h : construct 3 (some [-1, 0, -1]) = .ok t := by rw [ht]; rfl
  have e1 : format t [-1 / 4, -1 / 5] [4000] = .ok f := by rw [ht, hf]; norm_num [format, formatFlow, formatCp]
  have e2 : format t [-1 / 2, -1 / 5] [4000] = .ok f' := by rw [ht, hf']; norm_num [format, formatFlow, formatCp]
  have hfield : ∀ g : Formatted, (∀ i : Fin 3, mBore t g i ≠ 0) → TubeField (fun _ => UTube.sample true) (fun _ k => 50 * (k : ℝ)) (fun _ => 2) t g := fun g hg =>
    ⟨fun _ => UTube.sample_valid true, fun _ => by norm_num [UTube.sample, singleUTube], fun _ => ⟨by norm_num, by norm_num, by norm_num [UTube.sample, singleUTube], fun i j hij _ => by
      have : (i : ℝ) ≤ j := by exact_mod_cast hij
      linarith⟩, hg, fun _ => Or.inr rfl⟩
  have m1 : ∀ i : Fin 3, mBore t f i = if i = 2 then -1 / 5 else -1 / 4 := fun i => by
    rw [ht, hf]
    fin_cases i <;> rfl
  have m2 : ∀ i : Fin 3, mBore t f' i = if i = 2 then -1 / 5 else -1 / 2 := fun i => by
    rw [ht, hf']
    fin_cases i <;> rfl
  obtain ⟨ki, ki', -, -, hlt⟩ := tubes_heat h e1 e2 (by rw [hf, hf']) (by rw [hf]; norm_num) (hfield f fun i => by rw [m1]; split_ifs <;> norm_num)
    (hfield f' fun i => by rw [m2]; split_ifs <;> norm_num) (fun i => by
      rw [m1, m2]
      split_ifs
      · exact Or.inl rfl
      · exact Or.inr (by norm_num [abs_of_neg])) ⟨0, by rw [ht, hf]; simp [flowOutlets], by rw [m1, m2, if_neg (by decide), if_neg (by decide)]; norm_num [abs_of_neg]⟩ (show (5 : ℝ) ≠ 12 by norm_num)
  exact ⟨t, f, f', ki, ki', h, e1, e2, hlt⟩

/-- The same field at the total flow rate of 0.5 kg/s and at three times this. -/
example : ∃ (t : Topology) (f : Formatted), construct 3 (some [-1, 0, -1]) = .ok t ∧ format t [1 / 2] [4000] = .ok f ∧ Aligned t f ∧
    TubeField (fun _ => UTube.sample true) (fun _ k => 50 * (k : ℝ)) (fun _ : Fin 3 => 2) t f := by
  obtain ⟨t, ht⟩ : ∃ t : Topology, t = ⟨3, [-1, 0, -1], 2, 2, [0, 2], [1, 2], [0, 0, 1]⟩ := ⟨_, rfl⟩
  obtain ⟨f, hf⟩ : ∃ f : Formatted, f = ⟨[1 / 4, 1 / 4], false, 4000⟩ := ⟨_, rfl⟩
  have h : construct 3 (some [-1, 0, -1]) = .ok t := by rw [ht]; rfl
  refine ⟨t, f, h, by rw [ht, hf]; norm_num [format, formatFlow, formatCp, List.replicate], ?_, fun _ => UTube.sample_valid true, fun _ => by norm_num [UTube.sample, singleUTube],
    fun _ => ⟨by norm_num, by norm_num, by norm_num [UTube.sample, singleUTube], fun i j hij _ => by
      have : (i : ℝ) ≤ j := by exact_mod_cast hij
      linarith⟩, fun i => ?_, fun _ => Or.inr rfl⟩
  · exact aligned_uniform h f (by rw [hf, ht]; rfl) (1 / 4) (by rw [hf]; simp)
  · rw [ht, hf]
    fin_cases i <;> norm_num [mBore]

end Verif.Pipe
