import Verif.Pipe.DissProps

/-!
# Property C117 (networks): every heat extraction rate can be imposed on a network
-/

noncomputable section

namespace Verif.Net

variable {n : ℕ} {ns : Fin n → ℕ} {conn : Option (List ℤ)} {t : Topology}

/-- With walls at zero, the temperatures decrease in the boreholes. -/
theorem network_damped (h : construct n conn = .ok t) (p : (i : Fin n) → Pipe (ns i)) (f : Formatted) (hp : ∀ i, |(p i).outA (mBore t f i) f.cp| < 1) {ki ko : Coef (Fin n) ns}
    (hki : netInlet t p f = some ki) (hko : netOutlet t p f = some ko) (i : Fin n) : |ki.eval 1 0 i| ≤ 1 ∧ |ko.eval 1 0 i| < 1 := by
  obtain ⟨ki', ko', h1, h2, hs⟩ := network_temperatures h p f
  rw [hki, Option.some.injEq] at h1
  rw [hko, Option.some.injEq] at h2
  subst h1 h2
  obtain ⟨hsol, -⟩ := hs 1 0
  obtain ⟨rank, hrank⟩ := fedBy_rank h f
  obtain ⟨r, hr⟩ : ∃ r, rank i = r := ⟨_, rfl⟩
  induction r using Nat.strong_induction_on generalizing i with
  | _ r ih =>
    have hx : |ki.eval 1 0 i| ≤ 1 := by
      by_cases hf : ∃ j : Fin n, FedBy t f i j
      · obtain ⟨j, hj⟩ := hf
        rw [hsol.fed i j hj]
        exact (ih (rank j) (by rw [← hr]; exact hrank i j hj) j rfl).2.le
      · push Not at hf
        rw [hsol.inlet i hf, abs_one]
    refine ⟨hx, ?_⟩
    rw [hsol.model i]
    simp only [Pi.zero_apply, mul_zero, Finset.sum_const_zero, add_zero, abs_mul]
    calc |boreA t p f i| * |ki.eval 1 0 i| ≤ |boreA t p f i| * 1 := mul_le_mul_of_nonneg_left hx (abs_nonneg _)
      _ < 1 := by rw [mul_one]; exact hp i

/-- **C117** (networks).  In a network of boreholes whose outlets respond to their inlets by less than the change of the inlet, every total heat extraction rate is obtained for exactly one inlet temperature,
which is the one returned (the inverse exists); a higher rate needs a lower temperature. -/
theorem network_inlet_of_heat (h : construct n conn = .ok t) (p : (i : Fin n) → Pipe (ns i)) {m cp : List ℝ} {f : Formatted} (hf : format t m cp = .ok f) (hcp : 0 < f.cp)
    (hS : (f.mIn.map abs).sum ≠ 0) (hp : ∀ i, |(p i).outA (mBore t f i) f.cp| < 1) :
    ∃ ki k', netInlet t p f = some ki ∧ netFromHeat (netHeat (fluidHeat t p f ki)) = some k' ∧ ∀ Tb Q,
      (∀ Tin, (netHeat (fluidHeat t p f ki)).eval Tin Tb () = Q ↔ Tin = k'.eval Q Tb ()) ∧ ∀ Q', Q < Q' → k'.eval Q' Tb () < k'.eval Q Tb () := by
  obtain ⟨ki, ko, hki, hko, -⟩ := network_temperatures h p f
  have hlen := (format_ok hf).1
  have hneg : (netHeat (fluidHeat t p f ki)).aIn () < 0 := by
    have h1 := heat_total h p f hlen ki ko hki hko 1 0
    have h2 : (netHeat (fluidHeat t p f ki)).eval 1 0 () = (netHeat (fluidHeat t p f ki)).aIn () := by simp [Coef.eval]
    rw [h2] at h1
    rw [h1, ← inlet_total h f hlen, ← flow_conservation h f, one_mul, ← Finset.sum_sub_distrib]
    have hS' : (f.mIn.map abs).sum = ∑ i : Fin n, if (i : ℕ) ∈ flowOutlets t f then |mBore t f i| else 0 := by rw [flow_conservation h f, inlet_total h f hlen]
    refine mul_neg_of_pos_of_neg hcp (Finset.sum_neg' (fun i _ => ?_) ?_)
    · split_ifs with hi
      · have := (abs_lt.mp (network_damped h p f hp hki hko i).2).2
        nlinarith [abs_nonneg (mBore t f i)]
      · simp
    · rw [hS'] at hS
      obtain ⟨i, hi, hne⟩ := Finset.exists_ne_zero_of_sum_ne_zero hS
      refine ⟨i, hi, ?_⟩
      split_ifs at hne ⊢ with ho
      · have h3 := (abs_lt.mp (network_damped h p f hp hki hko i).2).2
        have h4 : 0 < |mBore t f i| := lt_of_le_of_ne (abs_nonneg _) (Ne.symm hne)
        nlinarith
      · exact absurd rfl hne
  obtain ⟨hn, hr⟩ := network_inlet_roundtrip (netHeat (fluidHeat t p f ki))
  cases hk : netFromHeat (netHeat (fluidHeat t p f ki)) with
  | none => exact absurd (hn.mp hk) hneg.ne
  | some k' =>
    refine ⟨ki, k', hki, hk, fun Tb Q => ?_⟩
    have hround := hr k' hk
    have hlin : ∀ a b, (netHeat (fluidHeat t p f ki)).eval a Tb () - (netHeat (fluidHeat t p f ki)).eval b Tb () = (netHeat (fluidHeat t p f ki)).aIn () * (a - b) := fun a b => by
      simp only [Coef.eval]
      ring
    refine ⟨fun Tin => ⟨fun he => ?_, fun he => by rw [he, hround]⟩, fun Q' hQ => ?_⟩
    · have h1 := hlin Tin (k'.eval Q Tb ())
      rw [he, hround, sub_self] at h1
      exact sub_eq_zero.mp ((mul_eq_zero.mp h1.symm).resolve_left hneg.ne)
    · have h1 := hlin (k'.eval Q' Tb ()) (k'.eval Q Tb ())
      rw [hround, hround] at h1
      nlinarith

end Verif.Net

namespace Verif.Pipe

/-- **C117** (single U-tubes and coaxial pipes in a network). -/
theorem UTube.netPipe_damped {t : UTube} (hv : t.Valid) {m cp : ℝ} (hm : m ≠ 0) (hc : 0 < cp) (zu : ℕ → ℝ) (n : ℕ) : |(t.netPipe zu n).outA m cp| < 1 := by
  have hp := UTube.par_passive hv hm hc
  have hA := UTube.outA_lt hv hm hc
  have hden := UPar.den_pos hp
  obtain ⟨p, hpd⟩ : ∃ p, p = t.par m cp := ⟨_, rfl⟩
  rw [← hpd] at hp hA hden
  have hoA : p.outA = (p.A + p.B * p.e) / (p.B + p.A * p.e) := rfl
  have e1 : 1 + p.outA = 2 * (1 + p.e) / (p.B + p.A * p.e) := by
    rw [hoA, UPar.A_eq, UPar.B_eq] at *
    field_simp
    ring
  have he : 0 < p.e := Real.exp_pos _
  have : 0 < 1 + p.outA := by rw [e1]; positivity
  rw [abs_lt]
  show -1 < (t.par m cp).outA ∧ (t.par m cp).outA < 1
  rw [← hpd]
  exact ⟨by linarith, hA⟩

/-- **C117** (several U-tubes in a network). -/
theorem Multi.multiple_damped {n k : ℕ} {Rd : Matrix (Multi.P n) (Multi.P n) ℝ} (hR : Multi.Circuit Rd) {c : Multi.Config} {reversible : Bool} {m cp : ℝ}
    (hf : Multi.Flowing n reversible m cp) {e : Multi.Eig n} (he : e.Of (Multi.odeA Rd (Multi.multiple c n reversible m cp).mcp)) {zu : ℕ → ℝ} {H : ℝ} (hH : 0 < H) (hz : Edges zu k H)
    {p : Net.Pipe k} (hp : Multi.Represents (Multi.mkBore k (Multi.multiple c n reversible m cp) Rd e zu H) zu p m cp) : |p.outA m cp| < 1 := by
  rw [← sq_lt_one_iff_abs_lt_one]
  by_contra hge
  push Not at hge
  obtain ⟨v, hv⟩ := (Multi.multiple_downhill hR hf he hH hz hp 1 fun _ => 0).2 (by
    simp only [mul_one, mul_zero, zero_mul, Finset.sum_const_zero, add_zero, one_pow]
    have := hf.hcp
    have h5 : 0 ≤ p.outA m cp ^ 2 - 1 := by linarith
    positivity)
  exact one_ne_zero hv

/-- Two boreholes in series with reversed flow. -/
example : ∃ t f ki k', Net.construct 2 (some [-1, 0]) = .ok t ∧ Net.format t [-3] [4] = .ok f ∧
    Net.netInlet t (n := 2) (ns := fun _ => 2) (fun _ => (UTube.sample true).netPipe (fun k => 50 * (k : ℝ)) 2) f = some ki ∧
    Net.netFromHeat (Net.netHeat (Net.fluidHeat t (fun _ => (UTube.sample true).netPipe (fun k => 50 * (k : ℝ)) 2) f ki)) = some k' ∧
    ∀ Tb, k'.eval 600 Tb () < k'.eval 500 Tb () := by
  obtain ⟨t, htd⟩ : ∃ t : Net.Topology, t = ⟨2, [-1, 0], 1, 1, [0], [1], [0, 0]⟩ := ⟨_, rfl⟩
  have ht : Net.construct 2 (some [-1, 0]) = .ok t := by rw [htd]; rfl
  obtain ⟨f, hfd⟩ : ∃ f : Net.Formatted, f = ⟨[-3], true, 4⟩ := ⟨_, rfl⟩
  have hf : Net.format t [-3] [4] = .ok f := by
    rw [htd, hfd]; norm_num [Net.format, Net.formatFlow, Net.formatCp]
  have hm : ∀ i : Fin 2, Net.mBore t f i = -3 := by
    intro i
    rw [htd, hfd]
    fin_cases i <;> rfl
  obtain ⟨ki, k', h1, h2, h3⟩ := Net.network_inlet_of_heat (ns := fun _ => 2) ht (fun _ => (UTube.sample true).netPipe (fun k => 50 * (k : ℝ)) 2) hf (by rw [hfd]; norm_num) (by rw [hfd]; norm_num)
    fun i => by
      rw [hm i]
      exact UTube.netPipe_damped (UTube.sample_valid true) (by norm_num) (by rw [hfd]; norm_num) _ _
  exact ⟨t, f, ki, k', ht, hf, h1, h2, fun Tb => (h3 Tb 500).2 600 (by norm_num)⟩

end Verif.Pipe
