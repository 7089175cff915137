import Verif.Gf.OrderGfProps

/-!
# Property C144: two boreholes in series

The reason why C144 is about boreholes in parallel: with two equal boreholes in series the g-function with a mixed inlet temperature is below the one with a uniform temperature of the walls.
-/

noncomputable section

namespace Verif.Gf

open Bore Sol Net FLS

/-- Two equal boreholes in series, one segment each: the first value. -/
theorem series_value {κ r a b Q0 Q1 T0 T1 Tin g : ℝ} (hr : 0 < r) (hκ : 0 < κ) (hκ1 : κ ≤ 1) (hab : b < a) (hQ : Q0 + Q1 = 2) (hT0 : T0 = a * Q0 + b * Q1) (hT1 : T1 = b * Q0 + a * Q1)
    (h0 : Tin - T0 = r * Q0) (h1 : Tin - T1 - κ * (Tin - T0) = r * Q1) (hg : (2 - κ) * (Tin - g) = 2 * r) : g < a + b := by
  obtain ⟨q, hq⟩ : ∃ q, q = Q0 - 1 := ⟨_, rfl⟩
  obtain rfl : Q0 = 1 + q := by linarith
  obtain rfl : Q1 = 1 - q := by linarith
  subst hT0 hT1
  have e : q * (2 * r - κ * r + 2 * (a - b)) = κ * r := by linear_combination h1 - (1 - κ) * h0
  have hden : 0 < 2 * r - κ * r + 2 * (a - b) := by nlinarith
  have hq0 : 0 < q := by
    by_contra hc
    nlinarith [mul_pos hκ hr]
  have e2 : (2 - κ) * (a + b - g) = (a - b) * q * κ := by linear_combination hg - (2 - κ) * h0 - e
  have h3 : 0 < (a - b) * q * κ := mul_pos (mul_pos (by linarith) hq0) hκ
  rw [← e2] at h3
  have := (mul_pos_iff_of_pos_left (by linarith : (0 : ℝ) < 2 - κ)).mp h3
  linarith

/-- … and the solvers. -/
theorem series_below {N : ℕ} (hN : N = 2) {H : Fin N → ℝ} {L : ℝ} (hL : 0 < L) (hH : ∀ i, H i = L) {fl : Flow N} (hHb : fl.Hb = H) (hks : 0 < fl.ks) {i0 i1 : Fin N} (v0 : (i0 : ℕ) = 0)
    (v1 : (i1 : ℕ) = 1) {q κ : ℝ} (hq : 0 < q) (hκ : 0 < κ) (hκ1 : κ ≤ 1) (heat0 : ∀ Tin (T : Fin N → ℝ), fl.aIn i0 * Tin + ∑ j, fl.aB i0 j * T j = q * (T i0 - Tin))
    (heat1 : ∀ Tin (T : Fin N → ℝ), fl.aIn i1 * Tin + ∑ j, fl.aB i1 j * T j = q * (T i1 - (Tin + κ * (T i0 - Tin)))) {F : Fin N → Fin N → ℝ → ℝ} {resp : List ℝ → Fin N → Fin N → List ℝ}
    (hF : Sampled F resp) (hsym : ∀ t, Reciprocal H fun i j => F i j t) (hsame : ∀ t, F i0 i0 t = F i1 i1 t) (hdef : ∀ t, 0 < t → Definite H fun i j => F i j t)
    {time : List ℝ} {thr : ℝ} (hpos : ∀ t ∈ time, 0 < t) (hs : time.Pairwise (· < ·)) (hthr : 0 < thr)
    (hval : ∀ x, miftStep H fl (timeLong time thr) (resp (timeLong time thr)) [] 0 = some x → q * (2 - κ) * (x.Tin - x.g) = 2 * Real.pi * fl.ks * ∑ i, H i)
    {g g' : List ℝ} {Qs Qs' : List (Fin N → ℝ)} {Ts : Fin N → List ℝ} (h : mift H fl resp time thr = some (g, Qs, Ts)) (h' : ubwt H resp time thr = some (g', Qs'))
    {k : ℕ} {t : ℝ} (hk : time[k]? = some t) (hkt : k = 0 ∨ t ≤ thr) : ∃ v v', g[k]? = some v ∧ g'[k]? = some v' ∧ v < v' := by
  subst hN
  obtain rfl : i0 = 0 := Fin.ext v0
  obtain rfl : i1 = 1 := Fin.ext v1
  obtain ⟨x, hx, hg, hT⟩ := mift_first_value hF hpos hs hthr h hk hkt
  obtain ⟨T, Q, h1, -, h3, h4⟩ := ubwt_first_value hF hpos hs hthr h' hk hkt
  obtain ⟨τ, hτ⟩ : ∃ τ, τ = if t ≤ thr then thr else t := ⟨_, rfl⟩
  rw [← hτ] at hT h3
  have ht := hpos t (List.mem_of_getElem? hk)
  have hτ0 : 0 < τ := by rw [hτ]; split_ifs <;> assumption
  have hu : 0 < underThreshold t thr := by unfold underThreshold; split_ifs <;> positivity
  have hbal := (mift_balance hx hks.ne' (by rw [hHb]; exact fun i => by rw [hH i]; exact hL.ne') (fun _ => 1) (by rw [hHb]; simp)).1
  have hm : ∑ i, H i * x.Q i = ∑ i, H i := by obtain ⟨_, _, _, _, _, h3, _⟩ := miftStep_spec hx; exact h3
  have hQ : ∑ i, H i * Q i = ∑ i, H i := h4
  simp only [Fin.sum_univ_two, hH] at hm hQ
  have b0 := hbal 0
  have b1 := hbal 1
  rw [heat0, hHb, hH] at b0
  rw [heat1, hHb, hH] at b1
  have hv := hval x hx
  simp only [Fin.sum_univ_two, hH] at hv
  obtain ⟨a, ha⟩ : ∃ a, a = F 0 0 τ := ⟨_, rfl⟩
  obtain ⟨b, hb⟩ : ∃ b, b = F 0 1 τ := ⟨_, rfl⟩
  have ha' : F 1 1 τ = a := by rw [ha, hsame]
  have hb' : F 1 0 τ = b := by
    have := hsym τ 1 0
    rw [hH, hH] at this
    rw [hb]
    exact mul_left_cancel₀ hL.ne' this
  have hab : b < a := by
    have := hdef τ hτ0 ![1, -1] (fun h0 => by have := congrFun h0 0; simp at this)
    simp [Fin.sum_univ_two, hH, ← ha, ← hb, ha', hb'] at this
    nlinarith
  have t0 := hT 0
  have t1 := hT 1
  have u0 := h3 0
  have u1 := h3 1
  simp only [Fin.sum_univ_two, ← ha, ← hb, ha', hb'] at t0 t1 u0 u1
  have hmQ : x.Q 0 + x.Q 1 = 2 := by
    apply mul_left_cancel₀ hL.ne'; linarith
  have hQQ : Q 0 + Q 1 = 2 := by
    apply mul_left_cancel₀ hL.ne'; linarith
  have hTv : T = a + b := by linear_combination u0 / 2 + u1 / 2 + (a + b) / 2 * hQQ
  obtain ⟨c, hc⟩ : ∃ c, c = 2 * Real.pi * fl.ks := ⟨_, rfl⟩
  have hc0 : 0 < c := by rw [hc]; have := Real.pi_pos; positivity
  rw [← hc] at b0 b1 hv
  have hlt : x.g < a + b := by
    refine series_value (r := c * L / q) (κ := κ) (by positivity) hκ hκ1 hab hmQ t0 t1 (Tin := x.Tin) ?_ ?_ ?_
    · field_simp; linarith
    · field_simp; linarith
    · field_simp; linarith
  refine ⟨_, underThreshold t thr * T, hg, ?_, ?_⟩
  · rw [h1]
    unfold underThreshold
    split_ifs
    · congr 1; ring
    · rw [one_mul]
  · rw [hTv]
    exact mul_lt_mul_of_pos_left hlt hu

/-- A borehole of one segment. -/
theorem one_segment {k : ℕ} (hk : k = 1) {p : Net.Pipe k} {m cp : ℝ} (hp : p.Thermal m cp) (s : Fin k) (Tin : ℝ) (Tb : Fin k → ℝ) :
    p.heatA m cp s * Tin + ∑ s', p.heatB m cp s s' * Tb s' = |m| * cp * (1 - p.outA m cp) * (Tb s - Tin) ∧
      p.outA m cp * Tin + ∑ s', p.outB m cp s' * Tb s' = Tin + (1 - p.outA m cp) * (Tb s - Tin) := by
  subst hk
  obtain rfl : s = 0 := Subsingleton.elim _ _
  have h1 := hp.balance Tin Tb
  have h2 := hp.uniform
  simp only [Fin.sum_univ_one] at h1 h2 ⊢
  constructor
  · rw [h1]; linear_combination |m| * cp * Tb 0 * h2
  · linear_combination Tb 0 * h2

/-- Two equal boreholes. -/
def pairRow : List Borehole := [⟨100, 4, 1 / 10, 0, 0, 0, 0⟩, ⟨100, 4, 1 / 10, 5, 0, 0, 0⟩]

theorem pairRow_upright : Upright (1 / 10) pairRow := by
  constructor <;> simp [pairRow]

theorem pairRow_splits : Splits pairRow [1, 1] [[1], [1]] := by
  refine ⟨⟨?_, ?_⟩, ?_, ?_⟩ <;> simp [pairRow]

theorem pairRow_spaced : Spaced (1 / 10) pairRow := by
  norm_num [Spaced, pairRow]

theorem pairRow_segments : segmentList pairRow [1, 1] [[1], [1]] = pairRow := by simp [segmentList, segments_eq, segsFrom, pairRow, Borehole.segmentAt, Borehole.new]

theorem pairRow_mem {b : Borehole} (h : b ∈ segmentList pairRow [1, 1] [[1], [1]]) : b ∈ pairRow := by rwa [pairRow_segments] at h

/-- The pipes of both boreholes. -/
def pairPipe (i : Fin pairRow.length) (r : List ℝ) : Net.Pipe r.length := (Pipe.UTube.sample true).netPipe (edgesAt pairRow[i] r) r.length

theorem pairPipe_even (i : Fin pairRow.length) {m : ℝ} : EvenTube pairRow[i] (pairPipe i) m := by
  refine ⟨Pipe.UTube.sample true, Pipe.UTube.sample_valid true, by norm_num [Pipe.UTube.sample, Pipe.singleUTube], by norm_num [Pipe.UTube.sample, Pipe.singleUTube], ?_, Or.inr rfl, fun r => rfl⟩
  have : (i : ℕ) < 2 := i.isLt
  rcases i with ⟨i, hi⟩
  interval_cases i <;> rfl

/-- **C144** (why in parallel).  Two equal boreholes with single U-tubes in series: the first value of the g-function with a mixed inlet temperature, and those under the threshold, are less
than those with a uniform temperature of the walls. -/
theorem series_order {time : List ℝ} (hpos : ∀ t ∈ time, 0 < t) (hs : time.Pairwise (· < ·)) {thr ks : ℝ} (hthr : 0 < thr) (hks : 0 < ks) {m cp : ℝ} (hm : 0 < m) (hcp : 0 < cp) :
    ∃ g Qs Ts g' Qs', mixedNetwork lineKernel pairRow [1, 1] [[1], [1]] (some [-1, 0]) pairPipe ks [m] cp time thr = some (g, Qs, Ts) ∧
      temperatureDetailed lineKernel pairRow [1, 1] [[1], [1]] time thr = some (g', Qs') ∧
      ∀ (k : ℕ) (τ : ℝ), time[k]? = some τ → k = 0 ∨ τ ≤ thr → ∃ v v', g[k]? = some v ∧ g'[k]? = some v' ∧ v < v' := by
  obtain ⟨t, htd⟩ : ∃ t : Topology, t = ⟨2, [-1, 0], 1, 1, [0], [1], [0, 0]⟩ := ⟨_, rfl⟩
  have ht : construct pairRow.length (some [-1, 0]) = .ok t := by rw [htd]; rfl
  obtain ⟨f, hfd⟩ : ∃ f : Formatted, f = ⟨[m], false, cp⟩ := ⟨_, rfl⟩
  have hf : format t [m] [cp] = .ok f := by
    rw [htd, hfd]; norm_num [Net.format, formatFlow, formatCp, hm.le]
  have hmv : ∀ i : Fin pairRow.length, mBore t f i = m := fun i => by
    have : (i : ℕ) < 2 := i.isLt
    rw [htd, hfd]
    interval_cases h : (i : ℕ) <;> rfl
  have hflow : ∀ i : Fin pairRow.length, mBore t f i ≠ 0 := fun i => by rw [hmv]; exact hm.ne'
  have hp : ∀ i : Fin pairRow.length, UTubeIn pairRow[i] (pairPipe i) (mBore t f i) ∨ MultipleIn pairRow[i] (pairPipe i) (mBore t f i) cp := fun i => Or.inl (pairPipe_even i).tube.tube
  have ha : (0 : ℝ) < 1 / 10 ^ 6 := by norm_num
  have hK : ∀ t s r, lineKernel t true s r = fls t (1 / 10 ^ 6) (pairOf s r) true true := fun _ _ _ => rfl
  obtain ⟨⟨g, Qs, Ts⟩, hr⟩ := tube_network_returns ha hK pairRow_upright pairRow_splits pairRow_spaced hpos hs hthr ht hks hcp hf hflow hp
  obtain ⟨⟨g', Qs'⟩, hout⟩ := temperature_returns ha hK pairRow_upright pairRow_splits pairRow_spaced hpos hs hthr
  refine ⟨g, Qs, Ts, g', Qs', hr, hout, fun k τ hk hkt => ?_⟩
  have hout2 := hout
  unfold temperatureDetailed at hout2
  rw [if_pos fun t _ => (detailed_value hK pairRow_upright pairRow_splits t).1] at hout2
  have hH : ∀ i : Fin pairRow.length, 0 < pairRow[i].H := fun i => pairRow_upright.H _ (List.getElem_mem _)
  have hmem : ∀ i : Fin pairRow.length, ([[1], [1]] : List (List ℝ)).getD i [] ∈ ([[1], [1]] : List (List ℝ)) := fun i => by
    have hi : (i : ℕ) < ([[1], [1]] : List (List ℝ)).length := i.isLt
    rw [List.getD_eq_getElem _ _ hi]; exact List.getElem_mem _
  have hpw := fun i : Fin pairRow.length => piped_weighted (cp := cp) (hflow i) hcp (hH i) (Or.inl (pairPipe_even i).tube) (pairRow_splits.pos _ (hmem i)) (pairRow_splits.sum _ (hmem i))
  have hth := fun i : Fin pairRow.length => piped_thermal (hflow i) hcp (hH i) (hp i) (pairRow_splits.pos _ (hmem i)) (pairRow_splits.sum _ (hmem i))
  have hth1 := fun i : Fin pairRow.length => piped_thermal (r := [1]) (hflow i) hcp (hH i) (hp i) (by simp) (by simp)
  obtain ⟨w, C, o, fl, ko, w0, w1, hC, hmm, hko, ho, hheat, hCC, hmift, hstep, ki, mcp, R, hki, hfl⟩ :=
    step_average pairRow_upright pairRow_splits ht hks hcp hf hflow hth (fun i => (hpw i).1) hth1 (fun i => (hpw i).2) hr
  obtain ⟨k1, ko', hk1, hko', -⟩ := network_temperatures ht (fun i => pairPipe i [1]) f
  rw [hko, Option.some.injEq] at hko'
  subst hko'
  have hfc : f.cp = cp := by rw [hfd]
  have hal : Aligned t f := fun k o hk => by
    rw [htd, hfd] at hk ⊢
    rcases k with _ | k
    · obtain rfl : (1 : ℕ) = o := by simpa [flowOutlets] using hk
      rfl
    · simp [flowOutlets] at hk
  have hresp := mixed_response ht (fun i => pairPipe i [1]) f (fun i => by rw [hfc]; exact hth1 i) (format_ok hf).1 (by rintro h0; rw [h0, zero_mul] at hmm; exact hmm.false) hal hk1 hko
  rw [← ho, ← hCC k1 hk1, hfc] at hresp
  have hflks : fl.ks = ks := by rw [hfl]; rfl
  have hflHb : fl.Hb = segmentLengths pairRow [1, 1] [[1], [1]] := by rw [hfl]; rfl
  have htot : ∀ Tin (T : Fin (segmentList pairRow [1, 1] [[1], [1]]).length → ℝ), ∑ a, (fl.aIn a * Tin + ∑ b, fl.aB a b * T b) = C * (∑ i, w i * T i - Tin) := fun Tin T => by
    rw [hfl, netFlow_heat, hheat ki hki]
  -- the heat of the two boreholes
  obtain ⟨i0, hi0⟩ : ∃ i : Fin pairRow.length, (i : ℕ) = 0 := ⟨(0 : Fin 2), rfl⟩
  obtain ⟨i1, hi1⟩ : ∃ i : Fin pairRow.length, (i : ℕ) = 1 := ⟨(1 : Fin 2), rfl⟩
  obtain ⟨place, hplace⟩ : ∃ e, e = segPlace (ns := fun i : Fin pairRow.length => (([[1], [1]] : List (List ℝ)).getD i []).length) (segments_total pairRow_splits.consistent) := ⟨_, rfl⟩
  obtain ⟨κ, hκ⟩ : ∃ κ, κ = 1 - ((Pipe.UTube.sample true).par m cp).outA := ⟨_, rfl⟩
  have hout1 : ∀ (i : Fin pairRow.length) (r : List ℝ), 1 - (pairPipe i r).outA m cp = κ := fun i r => by rw [hκ]; rfl
  have hκ0 : 0 < κ := by
    have := (hth1 i0).heated
    rw [hmv] at this
    have e := hout1 i0 [1]
    linarith
  have hκ1 : κ ≤ 1 := by
    have := (hpw i0).1.inlet
    rw [hmv] at this
    have e := hout1 i0 (([[1], [1]] : List (List ℝ)).getD i0 [])
    have e' : 0 ≤ (pairPipe i0 (([[1], [1]] : List (List ℝ)).getD i0 [])).outA m cp := this
    linarith
  obtain ⟨ki', ko2, hki', hko2, hsol⟩ := network_temperatures ht (fun i => pairPipe i (([[1], [1]] : List (List ℝ)).getD i [])) f
  rw [hki, Option.some.injEq] at hki'
  subst hki'
  have hone : ∀ i : Fin pairRow.length, (([[1], [1]] : List (List ℝ)).getD i []).length = 1 := fun i => by
    have : (i : ℕ) < 2 := i.isLt
    interval_cases h : (i : ℕ) <;> rfl
  obtain ⟨u, hu⟩ : ∃ u : (i : Fin pairRow.length) → Fin (([[1], [1]] : List (List ℝ)).getD i []).length, ∀ i, (u i : ℕ) = 0 := ⟨fun i => ⟨0, by rw [hone i]; norm_num⟩, fun _ => rfl⟩
  have hev : ∀ (i : Fin pairRow.length) (Tin : ℝ) (T : Fin (segmentList pairRow [1, 1] [[1], [1]]).length → ℝ),
      fl.aIn (place ⟨i, u i⟩) * Tin + ∑ b, fl.aB (place ⟨i, u i⟩) b * T b
        = m * cp * κ * (T (place ⟨i, u i⟩) - ki.eval Tin (fun s => T (place s)) i) ∧
      ko2.eval Tin (fun s => T (place s)) i = ki.eval Tin (fun s => T (place s)) i
        + κ * (T (place ⟨i, u i⟩) - ki.eval Tin (fun s => T (place s)) i) := fun i Tin T => by
    have e : fl.aIn (place ⟨i, u i⟩) * Tin + ∑ b, fl.aB (place ⟨i, u i⟩) b * T b
        = (boreHeat t (fun i => pairPipe i (([[1], [1]] : List (List ℝ)).getD i [])) f ki).eval Tin (fun s => T (place s)) ⟨i, u i⟩ := by
      rw [hfl, ← place.sum_comp]
      unfold netFlow Coef.eval
      rw [← hplace]
      simp only [Equiv.symm_apply_apply, Matrix.mulVec, dotProduct]
    have hthi := hth i
    rw [hmv i] at hthi
    obtain ⟨e1, e2⟩ := one_segment (hone i) hthi (u i) (ki.eval Tin (fun s => T (place s)) i)
      fun a => T (place ⟨i, a⟩)
    rw [hout1, abs_of_pos hm] at e1
    rw [hout1] at e2
    constructor
    · rw [e, (network_borehole_heat _ f ki Tin _).2]
      dsimp only
      rw [hmv i, hfc]
      exact e1
    · rw [((hsol Tin _).1.model i)]
      unfold boreA boreB
      rw [hmv i, hfc]
      exact e2
  have hin : ∀ (Tin : ℝ) (T : Fin (segmentList pairRow [1, 1] [[1], [1]]).length → ℝ), ki.eval Tin (fun s => T (place s)) i0 = Tin ∧
      ki.eval Tin (fun s => T (place s)) i1 = Tin + κ * (T (place ⟨i0, u i0⟩) - Tin) := fun Tin T => by
    have h0 := (hsol Tin fun s => T (place s)).1.inlet i0 fun j hj => by
      rw [FedBy, hfd, htd, hi0] at hj
      simp at hj
    refine ⟨h0, ?_⟩
    rw [(hsol Tin fun s => T (place s)).1.fed i1 i0 (by rw [FedBy, hfd, htd, hi0, hi1]; rfl), (hev i0 Tin T).2, h0]
  have heat0 : ∀ Tin (T : Fin (segmentList pairRow [1, 1] [[1], [1]]).length → ℝ), fl.aIn (place ⟨i0, u i0⟩) * Tin + ∑ j, fl.aB (place ⟨i0, u i0⟩) j * T j
      = m * cp * κ * (T (place ⟨i0, u i0⟩) - Tin) := fun Tin T => by
    rw [(hev i0 Tin T).1, (hin Tin T).1]
  have heat1 : ∀ Tin (T : Fin (segmentList pairRow [1, 1] [[1], [1]]).length → ℝ), fl.aIn (place ⟨i1, u i1⟩) * Tin + ∑ j, fl.aB (place ⟨i1, u i1⟩) j * T j
      = m * cp * κ * (T (place ⟨i1, u i1⟩) - (Tin + κ * (T (place ⟨i0, u i0⟩) - Tin))) := fun Tin T => by
    rw [(hev i1 Tin T).1, (hin Tin T).2]
  have v0 : (place ⟨i0, u i0⟩ : ℕ) = 0 := by
    rw [hplace, segPlace_val, hu]
    dsimp only
    rw [add_zero]
    exact Finset.sum_eq_zero fun j _ => by have := j.2; omega
  have v1 : (place ⟨i1, u i1⟩ : ℕ) = 1 := by
    rw [hplace, segPlace_val, hu]
    dsimp only
    rw [add_zero]
    simp only [List.getD_eq_getElem?_getD, Fin.val_castLE]
    rw [Finset.sum_congr rfl fun (j : Fin i1) _ => show (([[1], [1]] : List (List ℝ))[(j : ℕ)]?.getD []).length = 1 by
      have : (j : ℕ) = 0 := by have := j.2; omega
      rw [this]; rfl]
    simp [hi1]
  have hHL : ∀ i, segmentLengths pairRow [1, 1] [[1], [1]] i = 100 := fun i => by
    unfold segmentLengths
    have := pairRow_mem (List.getElem_mem i.2)
    simp only [pairRow, List.mem_cons, List.not_mem_nil, or_false] at this
    rcases this with h | h <;> rw [show (segmentList pairRow [1, 1] [[1], [1]])[i] = _ from h]
  have hCval : C = m * cp * κ * (2 - κ) := by
    have hsum := htot 0 fun _ => 1
    have hfs : (Finset.univ : Finset (Fin (segmentList pairRow [1, 1] [[1], [1]]).length)) = {place ⟨i0, u i0⟩, place ⟨i1, u i1⟩} := by
      ext j
      have hj : (j : ℕ) < 2 := j.2
      simp only [Finset.mem_univ, Finset.mem_insert, Finset.mem_singleton, true_iff, Fin.ext_iff, v0, v1]
      omega
    have hne : place ⟨i0, u i0⟩ ≠ place ⟨i1, u i1⟩ := fun h => by
      rw [Fin.ext_iff, v0, v1] at h
      omega
    have e : ∑ a, (fl.aIn a * 0 + ∑ b, fl.aB a b * (1 : ℝ)) = m * cp * κ * (1 - 0) + m * cp * κ * (1 - (0 + κ * (1 - 0))) := by
      rw [hfs, Finset.sum_pair hne]
      have := heat0 0 fun _ => 1
      have := heat1 0 fun _ => 1
      simp only [← hfs] at *
      linarith
    rw [e] at hsum
    simp only [mul_one, w1] at hsum
    linarith
  refine series_below (N := (segmentList pairRow [1, 1] [[1], [1]]).length) (L := 100) rfl (by norm_num) hHL hflHb (by rw [hflks]; exact hks) v0 v1 (by positivity) hκ0 hκ1 heat0 heat1 (responses_sampled hK pairRow_upright pairRow_splits)
    (fun t => segment_reciprocal pairRow_upright pairRow_splits t) (fun t => ?_) (fun t ht => responses_definite ha pairRow_upright pairRow_splits pairRow_spaced ht) hpos hs hthr (fun x hx => ?_)
    hmift hout2 hk hkt
  · unfold segmentResponse
    have hget : ∀ i : Fin (segmentList pairRow [1, 1] [[1], [1]]).length, pairOf (segmentList pairRow [1, 1] [[1], [1]])[i] (segmentList pairRow [1, 1] [[1], [1]])[i]
        = pairOf (⟨100, 4, 1 / 10, 0, 0, 0, 0⟩ : Borehole) ⟨100, 4, 1 / 10, 0, 0, 0, 0⟩ := fun i => by
      have := pairRow_mem (List.getElem_mem i.2)
      simp only [pairRow, List.mem_cons, List.not_mem_nil, or_false] at this
      rcases this with h | h <;> rw [show (segmentList pairRow [1, 1] [[1], [1]])[i] = _ from h]
      simp [pairOf, Borehole.distance]
    rw [hget, hget]
  · have hg := (hstep [] 0 x hx).mpr hresp
    obtain ⟨-, hbal, -⟩ := mift_balance hx (by rw [hflks]; exact hks.ne') (by rw [hflHb]; exact fun i => by rw [hHL]; norm_num) (fun _ => 1) (by rw [hflHb]; simp)
    simp only [one_mul] at hbal
    rw [htot, ← hg] at hbal
    rw [← hCval]
    linarith

/-- The two boreholes in parallel, with three segments in one and two in the other. -/
example : ∃ g Qs Ts g' Qs', mixedNetwork lineKernel pairRow [3, 2] [[1 / 4, 1 / 2, 1 / 4], [1 / 3, 2 / 3]] none pairPipe 2 [1, 3] 4 [10, 10 ^ 6, 10 ^ 8] 3600 = some (g, Qs, Ts) ∧
    temperatureDetailed lineKernel pairRow [3, 2] [[1 / 4, 1 / 2, 1 / 4], [1 / 3, 2 / 3]] [10, 10 ^ 6, 10 ^ 8] 3600 = some (g', Qs') ∧
    ∃ v v', g[0]? = some v ∧ g'[0]? = some v' ∧ v' ≤ v := by
  obtain ⟨t, htd⟩ : ∃ t : Topology, t = ⟨2, [-1, -1], 2, 2, [0, 1], [0, 1], [0, 1]⟩ := ⟨_, rfl⟩
  have ht : construct pairRow.length none = .ok t := by rw [htd]; rfl
  have hf : format t [1, 3] [4] = .ok ⟨[1, 3], false, 4⟩ := by
    rw [htd]; norm_num [Net.format, formatFlow, formatCp]
  have hsp : Splits pairRow [3, 2] [[1 / 4, 1 / 2, 1 / 4], [1 / 3, 2 / 3]] := by
    refine ⟨⟨?_, ?_⟩, ?_, ?_⟩ <;> norm_num [pairRow]
  obtain ⟨g, Qs, Ts, g', Qs', P, h1, h2, -, h4⟩ := mixed_order (alpha := 1 / 10 ^ 6) (K := lineKernel) (by norm_num) (fun _ _ _ => rfl) pairRow_upright hsp pairRow_spaced ht (ks := 2) (by norm_num)
    (cp := 4) (by norm_num) hf (fun i => by
      have : (i : ℕ) < 2 := i.isLt
      rw [htd]
      interval_cases h : (i : ℕ) <;> norm_num [mBore]) (fun i => pairPipe_even i) (time := [10, 10 ^ 6, 10 ^ 8]) (by norm_num) (by norm_num) (thr := 3600) (by norm_num)
  obtain ⟨v, v', e1, e2, e3, -⟩ := h4 0 10 rfl (Or.inl rfl)
  exact ⟨g, Qs, Ts, g', Qs', h1, h2, v, v', e1, e2, e3⟩

/-- The two boreholes in series. -/
example : ∃ g Qs Ts g' Qs', mixedNetwork lineKernel pairRow [1, 1] [[1], [1]] (some [-1, 0]) pairPipe 2 [1] 4 [10, 10 ^ 6] 3600 = some (g, Qs, Ts) ∧
    temperatureDetailed lineKernel pairRow [1, 1] [[1], [1]] [10, 10 ^ 6] 3600 = some (g', Qs') ∧ ∃ v v', g[0]? = some v ∧ g'[0]? = some v' ∧ v < v' := by
  obtain ⟨g, Qs, Ts, g', Qs', h1, h2, h3⟩ := series_order (time := [10, 10 ^ 6]) (by norm_num) (by norm_num) (thr := 3600) (ks := 2) (m := 1) (cp := 4) (by norm_num) (by norm_num) (by norm_num) (by norm_num)
  exact ⟨g, Qs, Ts, g', Qs', h1, h2, h3 0 10 rfl (Or.inl rfl)⟩

end Verif.Gf
