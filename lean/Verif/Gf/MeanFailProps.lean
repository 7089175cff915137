import Verif.Gf.MeanGfProps

/-!
# Property C108: a concrete case, and the networks where the g-function is not the average of the wall temperatures
-/

noncomputable section

namespace Verif.Pipe.UPar

open Real

/-- The response of the outlet to the inlet changes with the flow rate. -/
theorem outA_flow {p p' : UPar} (h1 : 0 < p.b1) (h2 : 0 < p.b2) (h12 : 0 ≤ p.b12) (hH : 0 < p.H) (e1 : p'.b1 = p.b1 / 3) (e2 : p'.b2 = p.b2 / 3) (e12 : p'.b12 = p.b12 / 3) (eH : p'.H = p.H) :
    p.outA ≠ p'.outA := by
  have hX : 0 < 1 / 4 * (p.b1 + p.b2) ^ 2 + p.b12 * (p.b1 + p.b2) := by positivity
  have hg : 0 < p.gamma := sqrt_pos.mpr hX
  have hg' : p'.gamma = p.gamma / 3 := by
    unfold gamma
    rw [e1, e2, e12, show 1 / 4 * (p.b1 / 3 + p.b2 / 3) ^ 2 + p.b12 / 3 * (p.b1 / 3 + p.b2 / 3) = (1 / 4 * (p.b1 + p.b2) ^ 2 + p.b12 * (p.b1 + p.b2)) / 3 ^ 2 by ring,
      sqrt_div hX.le, sqrt_sq (by norm_num)]
  obtain ⟨s, hs⟩ : ∃ s, s = 1 / 2 * (p.b1 + p.b2) / p.gamma := ⟨_, rfl⟩
  have hs0 : 0 < s := by rw [hs]; positivity
  have hs' : 1 / 2 * (p'.b1 + p'.b2) / p'.gamma = s := by rw [hs, e1, e2, hg']; field_simp
  have hA : p.A = 1 - s := by unfold A; rw [hs]
  have hB : p.B = 1 + s := by unfold B; rw [hs]
  have hA' : p'.A = 1 - s := by unfold A; rw [hs']
  have hB' : p'.B = 1 + s := by unfold B; rw [hs']
  obtain ⟨q, hq⟩ : ∃ q, q = exp (-2 * p.gamma * p.H) := ⟨_, rfl⟩
  obtain ⟨q', hq'⟩ : ∃ q', q' = exp (-2 * p'.gamma * p'.H) := ⟨_, rfl⟩
  have hlt : q < q' := by
    rw [hq, hq', hg', eH]
    apply exp_lt_exp.mpr
    have := mul_pos hg hH
    nlinarith
  have q0 : 0 < q := by rw [hq]; exact exp_pos _
  have q0' : 0 < q' := by rw [hq']; exact exp_pos _
  have q1' : q' < 1 := by
    rw [hq', hg', eH]
    rw [exp_lt_one_iff]
    have := mul_pos hg hH
    nlinarith
  unfold outA
  rw [hA, hB, hA', hB', ← hq, ← hq']
  have d1 : 0 < 1 + s + (1 - s) * q := by nlinarith
  have d2 : 0 < 1 + s + (1 - s) * q' := by nlinarith
  intro he
  rw [div_eq_div_iff d1.ne' d2.ne'] at he
  have : 4 * s * (q - q') = 0 := by linarith
  rcases mul_eq_zero.mp this with h | h <;> linarith

end Verif.Pipe.UPar

namespace Verif.Gf

open Bore Sol Net FLS

/-! ### A case where it holds -/

/-- Two boreholes in series with reversed flow: a single U-tube, and two U-tubes in series. -/
example : ∃ pipe g Qs Ts, mixedNetwork lineKernel fieldA [2, 1] [[1 / 4, 3 / 4], [1]] (some [-1, 0]) pipe 2 [-3] 4 [10 ^ 3, 10 ^ 6, 10 ^ 9] (10 ^ 4) = some (g, Qs, Ts) ∧
    ∃ w : Fin (segmentList fieldA [2, 1] [[1 / 4, 3 / 4], [1]]).length → ℝ, (∀ i, 0 ≤ w i) ∧ ∑ i, w i = 1 ∧
      ∀ k < 3, ∃ (v : ℝ) (T : Fin (segmentList fieldA [2, 1] [[1 / 4, 3 / 4], [1]]).length → ℝ), g[k]? = some v ∧ (∀ i, (Ts i)[k]? = some (T i)) ∧ v = ∑ i, w i * T i := by
  obtain ⟨t, htd⟩ : ∃ t : Topology, t = ⟨2, [-1, 0], 1, 1, [0], [1], [0, 0]⟩ := ⟨_, rfl⟩
  have ht : construct fieldA.length (some [-1, 0]) = .ok t := by rw [htd]; rfl
  obtain ⟨f, hfd⟩ : ∃ f : Formatted, f = ⟨[-3], true, 4⟩ := ⟨_, rfl⟩
  have hf : format t [-3] [4] = .ok f := by
    rw [htd, hfd]; norm_num [Net.format, formatFlow, formatCp]
  have hm : ∀ i : Fin fieldA.length, mBore t f i = -3 := by
    intro i
    rw [htd, hfd]
    have : (i : ℕ) < 2 := i.isLt
    interval_cases h : (i : ℕ) <;> rfl
  obtain ⟨p1, hp1⟩ := multipleIn_exists ⟨150, 2, 1 / 10, 5, 0, 0, 0⟩ (by norm_num) (Pipe.Multi.sample_circuit 2) .series (reversible := true) (m := -3) (cp := 4)
    ⟨by norm_num, by norm_num, by norm_num, Or.inr rfl⟩
  obtain ⟨p0, hp0⟩ : ∃ p0 : (r : List ℝ) → Net.Pipe r.length, p0 = fun r => (Pipe.UTube.sample true).netPipe (edgesAt ⟨100, 4, 1 / 10, 0, 0, 0, 0⟩ r) r.length := ⟨_, rfl⟩
  obtain ⟨pipe, hpipe⟩ : ∃ pipe : Fin fieldA.length → (r : List ℝ) → Net.Pipe r.length, pipe = fun i : Fin fieldA.length => if (i : ℕ) = 0 then p0 else p1 := ⟨_, rfl⟩
  have hp : ∀ i : Fin fieldA.length, TubeIn fieldA[i] (pipe i) (mBore t f i) ∨ MultipleIn fieldA[i] (pipe i) (mBore t f i) 4 := fun i => by
    rw [hm i, hpipe]
    have hi : i = (0 : Fin 2) ∨ i = (1 : Fin 2) := by
      have : (i : ℕ) < 2 := i.isLt
      rcases i with ⟨i, hi⟩
      interval_cases i
      · exact Or.inl rfl
      · exact Or.inr rfl
    rcases hi with rfl | rfl
    · refine Or.inl ⟨Pipe.UTube.sample true, Pipe.UTube.sample_valid true, by norm_num [Pipe.UTube.sample, Pipe.singleUTube], rfl, Or.inr rfl, fun r => ?_⟩
      show p0 r = _
      rw [hp0]
      rfl
    · exact Or.inr hp1
  obtain ⟨⟨g, Qs, Ts⟩, hr⟩ := tube_network_returns (alpha := 1 / 10 ^ 6) (K := lineKernel) (time := [10 ^ 3, 10 ^ 6, 10 ^ 9]) (thr := 10 ^ 4) (ks := 2) (by norm_num) (fun _ _ _ => rfl)
    fieldA_upright fieldA_splits fieldA_spaced (by simp) (by simp; norm_num) (by norm_num) ht (by norm_num) (by norm_num) hf (fun i => by rw [hm i]; norm_num)
    fun i => (hp i).imp_left TubeIn.tube
  obtain ⟨w, w0, w1, -, hall⟩ := tube_network_mean_partial fieldA_upright fieldA_splits ht (by norm_num) (by norm_num) hf (fun i => by rw [hm i]; norm_num) hp
    (aligned_rev ht f (by rw [hfd])) hr
  exact ⟨pipe, g, Qs, Ts, hr, w, w0, w1, hall⟩

/-! ### A case where it fails -/

/-- Four boreholes in a row. -/
def fieldRow : List Borehole := [⟨100, 4, 1 / 10, 0, 0, 0, 0⟩, ⟨100, 4, 1 / 10, 5, 0, 0, 0⟩, ⟨100, 4, 1 / 10, 10, 0, 0, 0⟩, ⟨100, 4, 1 / 10, 15, 0, 0, 0⟩]

theorem fieldRow_upright : Upright (1 / 10) fieldRow := by
  constructor <;> simp [fieldRow]

theorem fieldRow_splits : Splits fieldRow [1, 1, 1, 1] [[1], [1], [1], [1]] := by
  refine ⟨⟨?_, ?_⟩, ?_, ?_⟩ <;> simp [fieldRow]

theorem fieldRow_spaced : Spaced (1 / 10) fieldRow := by
  norm_num [Spaced, fieldRow]

/-- The pipes of all the boreholes. -/
def rowPipe (i : Fin fieldRow.length) (r : List ℝ) : Net.Pipe r.length := (Pipe.UTube.sample true).netPipe (edgesAt fieldRow[i] r) r.length

theorem rowPipe_tube (i : Fin fieldRow.length) {m : ℝ} : TubeIn fieldRow[i] (rowPipe i) m := by
  refine ⟨Pipe.UTube.sample true, Pipe.UTube.sample_valid true, by norm_num [Pipe.UTube.sample, Pipe.singleUTube], ?_, Or.inr rfl, fun r => rfl⟩
  have : (i : ℕ) < 4 := i.isLt
  rcases i with ⟨i, hi⟩
  interval_cases i <;> rfl

/-- Four identical boreholes with single U-tubes, of which the first feeds the last and the second feeds the third, with flow rates of 1 and 3: the outlets are mixed in the wrong order. -/
theorem row_unbalanced {t : Topology} (htd : t = ⟨4, [-1, -1, 1, 0], 2, 2, [0, 1], [2, 3], [0, 1, 1, 0]⟩) {f : Formatted} (hfd : f = ⟨[1, 3], false, 4⟩)
    {k1 ko : Coef (Fin fieldRow.length) fun _ => 1} (hk1 : netInlet t (fun i => rowPipe i [1]) f = some k1) (hko : netOutlet t (fun i => rowPipe i [1]) f = some ko) :
    ¬ (f.mIn.map abs).sum * 4 * (1 - (netMixed (mixing (flowOutlets t f) f.mIn) ko).aIn ()) = conductance t (fun i => rowPipe i [1]) f k1 := by
  have ht : construct fieldRow.length (some [-1, -1, 1, 0]) = .ok t := by rw [htd]; rfl
  have hf : format t [1, 3] [4] = .ok f := by
    rw [htd, hfd]; norm_num [Net.format, formatFlow, formatCp]
  have hmv : mBore t f 0 = 1 ∧ mBore t f 1 = 3 ∧ mBore t f 2 = 3 ∧ mBore t f 3 = 1 := by rw [htd, hfd]; exact ⟨rfl, rfl, rfl, rfl⟩
  have hflow : ∀ i : Fin fieldRow.length, mBore t f i ≠ 0 := fun i => by
    have : (i : ℕ) < 4 := i.isLt
    obtain ⟨m0, m1, m2, m3⟩ := hmv
    interval_cases h : (i : ℕ) <;> simp only [m0, m1, m2, m3] <;> norm_num
  have hp : ∀ i : Fin fieldRow.length, TubeIn fieldRow[i] (rowPipe i) (mBore t f i) ∨ MultipleIn fieldRow[i] (rowPipe i) (mBore t f i) 4 := fun i => Or.inl (rowPipe_tube i)
  have hH : ∀ i : Fin fieldRow.length, 0 < fieldRow[i].H := fun i => fieldRow_upright.H _ (List.getElem_mem _)
  have hpw := fun i : Fin fieldRow.length => piped_weighted (cp := 4) (r := [1]) (hflow i) (by norm_num) (hH i) (hp i) (by simp) (by simp)
  have hp1 : ∀ i : Fin fieldRow.length, (rowPipe i [1]).Thermal (mBore t f i) 4 := fun i => piped_thermal (hflow i) (by norm_num) (hH i) (Or.inl (rowPipe_tube i).tube) (by simp) (by simp)
  obtain ⟨o, ho⟩ : ∃ o, o = (netMixed (mixing (flowOutlets t f) f.mIn) ko).aIn () := ⟨_, rfl⟩
  obtain ⟨C, hCC⟩ : ∃ C, C = conductance t (fun i => rowPipe i [1]) f k1 := ⟨_, rfl⟩
  rw [← ho, ← hCC]
  -- the responses to the inlet temperature
  obtain ⟨a, ha⟩ : ∃ a, a = ((Pipe.UTube.sample true).par 1 4).outA := ⟨_, rfl⟩
  obtain ⟨b, hb⟩ : ∃ b, b = ((Pipe.UTube.sample true).par 3 4).outA := ⟨_, rfl⟩
  have hpar : ∀ m : ℝ, 0 < m → (Pipe.UTube.sample true).par m 4 = ⟨5 / (m * 4), 5 / (m * 4), 2 / (m * 4), 100⟩ := fun m hm => by
    have hrev : (Pipe.UTube.sample true).isReversed m = false := by simp [Pipe.UTube.isReversed, hm.le]
    unfold Pipe.UTube.par Pipe.UTube.iInlet Pipe.UTube.iOutlet
    rw [hrev, abs_of_pos hm]
    simp [Pipe.UTube.sample, Pipe.singleUTube]
  have hab : a ≠ b := by
    rw [ha, hb]
    refine Pipe.UPar.outA_flow ?_ ?_ ?_ ?_ ?_ ?_ ?_ ?_ <;> rw [hpar 1 (by norm_num)] <;> try rw [hpar 3 (by norm_num)]
    all_goals norm_num
  have ha0 : 0 ≤ a := by
    have := (hpw (0 : Fin 4)).1.inlet
    rw [ha]
    have e : mBore t f ((0 : Fin 4) : ℕ) = 1 := hmv.1
    rw [e] at this
    exact this
  have hb0 : 0 ≤ b := by
    have := (hpw (1 : Fin 4)).1.inlet
    rw [hb]
    have e : mBore t f ((1 : Fin 4) : ℕ) = 3 := hmv.2.1
    rw [e] at this
    exact this
  have hfc : f.cp = 4 := by rw [hfd]
  -- the outlet temperatures for an inlet at one and walls at zero
  obtain ⟨k1', ko', hk1', hko', hs⟩ := network_temperatures ht (fun i => rowPipe i [1]) f
  rw [hko, Option.some.injEq] at hko'
  rw [hk1, Option.some.injEq] at hk1'
  subst hko' hk1'
  have hA : ∀ i : Fin 4, boreA t (fun i => rowPipe i [1]) f i = if i = 0 ∨ i = 3 then a else b := fun i => by
    show ((Pipe.UTube.sample true).par (mBore t f i) f.cp).outA = _
    obtain ⟨m0, m1, m2, m3⟩ := hmv
    rw [hfc]
    fin_cases i
    · simp only [Fin.zero_eta, m0, ← ha]; simp
    · show ((Pipe.UTube.sample true).par (mBore t f 1) 4).outA = _
      rw [m1, ← hb]; simp
    · show ((Pipe.UTube.sample true).par (mBore t f 2) 4).outA = _
      rw [m2, ← hb]; simp
    · show ((Pipe.UTube.sample true).par (mBore t f 3) 4).outA = _
      rw [m3, ← ha]; simp
  have hsol : Solves t f (boreA t (fun i => rowPipe i [1]) f) (boreB t (fun i => rowPipe i [1]) f) 1 0 (![1, 1, b, a] : Fin 4 → ℝ) (![a, b, b * b, a * a] : Fin 4 → ℝ) := by
    refine ⟨fun i => ?_, fun i j hij => ?_, fun i hi => ?_⟩
    · simp only [Pi.zero_apply, mul_zero, Finset.sum_const_zero, add_zero]
      rw [hA i]
      change Fin 4 at i
      fin_cases i <;> simp
    · rw [FedBy, hfd, htd] at hij
      change Fin 4 at i j
      fin_cases i <;> fin_cases j <;> simp at hij ⊢
    · change Fin 4 at i
      fin_cases i
      · rfl
      · rfl
      · exact absurd (show FedBy t f 2 1 by rw [FedBy, hfd, htd]; rfl) (hi (1 : Fin 4))
      · exact absurd (show FedBy t f 3 0 by rw [FedBy, hfd, htd]; rfl) (hi (0 : Fin 4))
  obtain ⟨-, hy⟩ := (hs 1 0).2 _ _ hsol
  have hout : flowOutlets t f = [2, 3] := by rw [hfd, htd]; rfl
  have hmIn : f.mIn = [1, 3] := by rw [hfd]
  have hov : o = 1 / 4 * (b * b) + 3 / 4 * (a * a) := by
    have e : (netMixed (mixing (flowOutlets t f) f.mIn) ko).aIn () = (netMixed (mixing (flowOutlets t f) f.mIn) ko).eval 1 0 () := by simp [Coef.eval]
    rw [ho, e, mixed_eval, ← hy, hout, hmIn]
    show ∑ i : Fin 4, mixing [2, 3] [1, 3] i * (![a, b, b * b, a * a] : Fin 4 → ℝ) i = _
    rw [Fin.sum_univ_four]
    have h0 : mixing [2, 3] [1, 3] 0 = 0 := by norm_num [mixing, List.findIdx?_cons]
    have h1 : mixing [2, 3] [1, 3] 1 = 0 := by norm_num [mixing, List.findIdx?_cons]
    have h2 : mixing [2, 3] [1, 3] 2 = 1 / 4 := by norm_num [mixing, List.findIdx?_cons]
    have h3 : mixing [2, 3] [1, 3] 3 = 3 / 4 := by norm_num [mixing, List.findIdx?_cons]
    show mixing [2, 3] [1, 3] 0 * a + mixing [2, 3] [1, 3] 1 * b + mixing [2, 3] [1, 3] 2 * (b * b) + mixing [2, 3] [1, 3] 3 * (a * a) = _
    rw [h0, h1, h2, h3]; ring
  have hCv : C = 4 * (4 - (3 * (b * b) + a * a)) := by
    rw [hCC, conductance, totalHeat_outlets ht _ f (fun i => by rw [hfc]; exact hp1 i) hk1 hko (format_ok hf).1, ← hy, hout, hmIn, hfc]
    obtain ⟨m0, m1, m2, m3⟩ := hmv
    have : ∑ i : Fin fieldRow.length, (if (i : ℕ) ∈ [2, 3] then |mBore t f i| * (![a, b, b * b, a * a] : Fin 4 → ℝ) i else 0) = 3 * (b * b) + a * a := by
      show ∑ i : Fin 4, (if (i : ℕ) ∈ [2, 3] then |mBore t f i| * (![a, b, b * b, a * a] : Fin 4 → ℝ) i else 0) = _
      rw [Fin.sum_univ_four]
      show (if 0 ∈ [2, 3] then |mBore t f 0| * a else 0) + (if 1 ∈ [2, 3] then |mBore t f 1| * b else 0) + (if 2 ∈ [2, 3] then |mBore t f 2| * (b * b) else 0)
        + (if 3 ∈ [2, 3] then |mBore t f 3| * (a * a) else 0) = _
      rw [m0, m1, m2, m3]
      norm_num
    have h4 : (([1, 3] : List ℝ).map abs).sum = 4 := by norm_num
    rw [this, h4]
    ring
  rw [hmIn, hov, hCv]
  norm_num
  intro he
  have h1 : (a - b) * (a + b) = 0 := by linarith
  rcases mul_eq_zero.mp h1 with h | h
  · exact hab (by linarith)
  · exact hab (by linarith)

/-- **C108** (refutation of the full statement).  Four identical boreholes with single U-tubes, of which the first feeds the last and the second feeds the third, with flow rates of 1 and 3: the
value returned by the g-function is not the temperature of uniform walls from which the network would extract the same heat at the same inlet temperature. -/
theorem mixed_network_mean_fails : ∃ (t : Topology) (f : Formatted) (g : List ℝ) (Qs : _) (Ts : _), construct fieldRow.length (some [-1, -1, 1, 0]) = .ok t ∧ format t [1, 3] [4] = .ok f ∧
    mixedNetwork lineKernel fieldRow [1, 1, 1, 1] [[1], [1], [1], [1]] (some [-1, -1, 1, 0]) rowPipe 2 [1, 3] 4 [10 ^ 6] (10 ^ 4) = some (g, Qs, Ts) ∧
    ∃ (v : ℝ) (T : Fin (segmentList fieldRow [1, 1, 1, 1] [[1], [1], [1], [1]]).length → ℝ), g[0]? = some v ∧ (∀ i, (Ts i)[0]? = some (T i)) ∧ ∀ ki, netInlet t (fun i => rowPipe i ([[1], [1], [1], [1]].getD i [])) f = some ki → ∀ Tin Tw,
      totalHeat t (fun i => rowPipe i ([[1], [1], [1], [1]].getD i [])) f ki Tin (fun s => T (segPlace (segments_total fieldRow_splits.consistent) s))
        = totalHeat t (fun i => rowPipe i ([[1], [1], [1], [1]].getD i [])) f ki Tin (fun _ => Tw) → v ≠ Tw := by
  obtain ⟨t, htd⟩ : ∃ t : Topology, t = ⟨4, [-1, -1, 1, 0], 2, 2, [0, 1], [2, 3], [0, 1, 1, 0]⟩ := ⟨_, rfl⟩
  have ht : construct fieldRow.length (some [-1, -1, 1, 0]) = .ok t := by rw [htd]; rfl
  obtain ⟨f, hfd⟩ : ∃ f : Formatted, f = ⟨[1, 3], false, 4⟩ := ⟨_, rfl⟩
  have hf : format t [1, 3] [4] = .ok f := by
    rw [htd, hfd]; norm_num [Net.format, formatFlow, formatCp]
  have hmv : mBore t f 0 = 1 ∧ mBore t f 1 = 3 ∧ mBore t f 2 = 3 ∧ mBore t f 3 = 1 := by rw [htd, hfd]; exact ⟨rfl, rfl, rfl, rfl⟩
  have hflow : ∀ i : Fin fieldRow.length, mBore t f i ≠ 0 := fun i => by
    have : (i : ℕ) < 4 := i.isLt
    obtain ⟨m0, m1, m2, m3⟩ := hmv
    interval_cases h : (i : ℕ) <;> simp only [m0, m1, m2, m3] <;> norm_num
  have hp : ∀ i : Fin fieldRow.length, TubeIn fieldRow[i] (rowPipe i) (mBore t f i) ∨ MultipleIn fieldRow[i] (rowPipe i) (mBore t f i) 4 := fun i => Or.inl (rowPipe_tube i)
  obtain ⟨⟨g, Qs, Ts⟩, hr⟩ := tube_network_returns (alpha := 1 / 10 ^ 6) (K := lineKernel) (time := [10 ^ 6]) (thr := 10 ^ 4) (ks := 2) (by norm_num) (fun _ _ _ => rfl)
    fieldRow_upright fieldRow_splits fieldRow_spaced (by simp) (by simp) (by norm_num) ht (by norm_num) (by norm_num) hf hflow fun i => (hp i).imp_left TubeIn.tube
  refine ⟨t, f, g, Qs, Ts, ht, hf, hr, ?_⟩
  -- the pipes
  have hmem : ∀ i : Fin fieldRow.length, ([[1], [1], [1], [1]] : List (List ℝ)).getD i [] ∈ ([[1], [1], [1], [1]] : List (List ℝ)) := fun i => by
    have hi : (i : ℕ) < ([[1], [1], [1], [1]] : List (List ℝ)).length := i.isLt
    rw [List.getD_eq_getElem _ _ hi]; exact List.getElem_mem _
  have hH : ∀ i : Fin fieldRow.length, 0 < fieldRow[i].H := fun i => fieldRow_upright.H _ (List.getElem_mem _)
  have hpw := fun i : Fin fieldRow.length => piped_weighted (cp := 4) (hflow i) (by norm_num) (hH i) (hp i) (fieldRow_splits.pos _ (hmem i)) (fieldRow_splits.sum _ (hmem i))
  have hp1 : ∀ i : Fin fieldRow.length, (rowPipe i [1]).Thermal (mBore t f i) 4 := fun i => piped_thermal (hflow i) (by norm_num) (hH i) (Or.inl (rowPipe_tube i).tube) (by simp) (by simp)
  obtain ⟨w, C, o, fl, ko, w0, w1, hC, hm, hko, ho, hheat, hCC, hmift, hstep, -⟩ := step_average fieldRow_upright fieldRow_splits ht (by norm_num) (by norm_num) hf hflow
    (fun i => piped_thermal (hflow i) (by norm_num) (hH i) (Or.inl (rowPipe_tube i).tube) (fieldRow_splits.pos _ (hmem i)) (fieldRow_splits.sum _ (hmem i))) (fun i => (hpw i).1) hp1
    (fun i => (hpw i).2) hr
  obtain ⟨k1, -, hk1, -⟩ := network_temperatures ht (fun i => rowPipe i [1]) f
  have hne : ¬ (f.mIn.map abs).sum * 4 * (1 - o) = C := by
    rw [ho, hCC k1 hk1]
    exact row_unbalanced htd hfd hk1 hko
  -- the value returned
  obtain ⟨past, p, x, c, hx, hg, hT, hc⟩ := mift_values hmift (k := 0) (by simp)
  have hc0 : c ≠ 0 := by
    rcases hc with rfl | rfl <;> norm_num
  refine ⟨_, fun i => x.T i * c, hg, hT, fun ki hki Tin Tw he hv => ?_⟩
  have h1 := hheat ki hki Tin fun i => x.T i * c
  have h2 := hheat ki hki Tin fun _ => Tw
  rw [h1, h2, ← Finset.sum_mul, w1, one_mul] at he
  have he' : ∑ i, w i * (x.T i * c) = Tw := by
    have := mul_left_cancel₀ hC.ne' he
    linarith
  rw [← hv] at he'
  refine hne ((hstep past p x hx).mp ?_)
  apply mul_right_cancel₀ hc0
  rw [← he', Finset.sum_mul]
  exact Finset.sum_congr rfl fun i _ => by ring

end Verif.Gf
