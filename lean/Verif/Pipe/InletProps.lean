import Verif.Pipe.GetHeatProps
import Verif.Pipe.DissProps
import Verif.Pipe.MultiCacheProps

/-!
# Property C117: every heat extraction rate can be imposed

For every kind of pipe with flow there is exactly one inlet temperature (of each circuit) for a heat extraction rate; it is the one returned, and a higher rate needs a lower temperature.
-/

noncomputable section

namespace Verif.Pipe.Get

open Matrix

variable {ι : Type} [Fintype ι] {ni : ℕ}

/-- Fluid that enters warmer than a wall at zero gives heat: the heat gained in the circuits weighted with the inlet temperatures is negative. -/
def Dissipative (P : Tubes ι ni) : Prop :=
  ∀ k zu, Edges zu k P.H → ∃ c, P.outlet k zu = some c ∧ ∀ x : Fin ni → ℝ, x ≠ 0 → ∑ i, x i * (P.mcpIn i * ((c.1 *ᵥ x) i - x i)) < 0

omit [Fintype ι] in
theorem fluid_some {P : Tubes ι ni} (hP : Dissipative P) {k : ℕ} {zu : ℕ → ℝ} (hz : Edges zu k P.H) :
    ∃ d, P.fluid k zu = some d ∧ (∀ x : Fin ni → ℝ, x ≠ 0 → ∑ i, x i * (d.1 *ᵥ x) i < 0) ∧ IsUnit d.1.det := by
  obtain ⟨c, hc, hd⟩ := hP k zu hz
  have hval : ∀ x : Fin ni → ℝ, (-diagonal P.mcpIn + diagonal P.mcpIn * c.1) *ᵥ x = fun i => P.mcpIn i * ((c.1 *ᵥ x) i - x i) := by
    intro x
    funext i
    rw [add_mulVec, neg_mulVec, ← mulVec_mulVec, Pi.add_apply, Pi.neg_apply, mulVec_diagonal, mulVec_diagonal]
    ring
  refine ⟨(-diagonal P.mcpIn + diagonal P.mcpIn * c.1, diagonal P.mcpIn * c.2), by unfold Tubes.fluid; rw [hc]; rfl, fun x hx => ?_, ?_⟩
  · rw [hval]
    exact hd x hx
  · rw [isUnit_iff_ne_zero]
    intro hdet
    obtain ⟨x, hx, h0⟩ := exists_mulVec_eq_zero_iff.mpr hdet
    have := hd x hx
    have h1 : ∑ i, x i * (P.mcpIn i * ((c.1 *ᵥ x) i - x i)) = 0 := by
      refine Finset.sum_eq_zero fun i _ => ?_
      have h2 : P.mcpIn i * ((c.1 *ᵥ x) i - x i) = 0 := by
        rw [← congrFun (hval x) i]
        exact congrFun h0 i
      rw [h2, mul_zero]
    linarith

omit [Fintype ι] in
/-- The coefficients for the inlet temperature exist. -/
theorem inlet_some {P : Tubes ι ni} (hP : Dissipative P) {k : ℕ} {zu : ℕ → ℝ} (hz : Edges zu k P.H) : ∃ c, P.inlet k zu = some c := by
  obtain ⟨d, hd, -, hu⟩ := fluid_some hP hz
  exact ⟨_, by unfold Tubes.inlet; rw [hd, Option.bind_some, if_pos hu]⟩

omit [Fintype ι] in
/-- **C117** (existence and uniqueness).  With one rate for each circuit, inlet temperatures are returned, as numbers for a number; they are the only ones for which the rates are returned. -/
theorem inlet_of_heat {P : Tubes ι ni} (hP : Dissipative P) (hH : 0 ≤ P.H) {Q Tb : Py} {q : Option (List ℝ)} (hq : Cover Tb.toList.length q) (hf : Forward q) (hQ : Q.toList.length = ni) :
    ∃ T, getInlet P Q Tb q = .ok T ∧ SameForm Q T ∧ ∀ T', getFluid P T' Tb q = .ok Q ↔ T' = T := by
  have hE := edges_ok hH hq hf
  obtain ⟨c1, c2⟩ := cover_check hq
  have key : ∀ n, n = count Tb.toList.length q → Edges (edges P.H Tb.toList.length q) n P.H := by rintro n rfl; rw [c2]; exact hE
  obtain ⟨c, hc⟩ := inlet_some hP (key _ rfl)
  obtain ⟨x, hx⟩ := exists_vec hQ
  obtain ⟨y, hy⟩ := exists_vec c2.symm
  obtain ⟨T, h1, h2, h3⟩ := like_ofFn Q (c.1 *ᵥ x + c.2 *ᵥ y) hQ
  have hT : getInlet P Q Tb q = .ok T := (getInlet_iff P).mpr ⟨c1, c, x, y, hc, hx, hy, h2, h3⟩
  refine ⟨T, hT, (form_partial P (.inr (.inl hT))).1, fun T' => ⟨fun h => ?_, fun h => ?_⟩⟩
  · rcases (inlet_inverse_partial P Q T' Tb q).2 h with h4 | h4
    · rw [hT] at h4
      exact (Except.ok.inj h4).symm
    · rw [hT] at h4
      cases h4
  · rw [h]
    exact (inlet_inverse_partial P Q T Tb q).1 hT

omit [Fintype ι] in
/-- **C117** (monotonicity).  For two sets of heat extraction rates and the same wall, the changes of the rates and of the inlet temperatures are opposed.  In particular with one circuit a higher rate
needs a lower inlet temperature. -/
theorem inlet_decreasing {P : Tubes ι ni} (hP : Dissipative P) (hH : 0 ≤ P.H) {Q Q' Tb T T' : Py} {q : Option (List ℝ)} (hq : Cover Tb.toList.length q) (hf : Forward q)
    (h : getInlet P Q Tb q = .ok T) (h' : getInlet P Q' Tb q = .ok T') : ∃ x x' t t' : Fin ni → ℝ, Q.toList = List.ofFn x ∧ Q'.toList = List.ofFn x' ∧
      T.toList = List.ofFn t ∧ T'.toList = List.ofFn t' ∧ (x ≠ x' → ∑ i, (x' i - x i) * (t' i - t i) < 0) := by
  have hE := edges_ok hH hq hf
  obtain ⟨c1, c2⟩ := cover_check hq
  have key : ∀ n, n = count Tb.toList.length q → Edges (edges P.H Tb.toList.length q) n P.H := by rintro n rfl; rw [c2]; exact hE
  obtain ⟨d, hd, hneg, -⟩ := fluid_some hP (key _ rfl)
  obtain ⟨-, g⟩ := (getFluid_iff P).mp ((inlet_inverse_partial P Q T Tb q).1 h)
  obtain ⟨-, g'⟩ := (getFluid_iff P).mp ((inlet_inverse_partial P Q' T' Tb q).1 h')
  obtain ⟨e, t, y, he, ht, hy, hx, -⟩ := g
  obtain ⟨e', t', y', he', ht', hy', hx', -⟩ := g'
  obtain rfl : d = e := Option.some.inj (hd.symm.trans he)
  obtain rfl : d = e' := Option.some.inj (hd.symm.trans he')
  obtain rfl : y = y' := List.ofFn_injective (hy.symm.trans hy')
  refine ⟨_, _, t, t', hx, hx', ht, ht', fun hne => ?_⟩
  have hne' : t' - t ≠ 0 := by
    intro h0
    apply hne
    rw [sub_eq_zero.mp h0]
  refine lt_of_eq_of_lt (Finset.sum_congr rfl fun i _ => ?_) (hneg (t' - t) hne')
  rw [mulVec_sub]
  simp only [Pi.add_apply, Pi.sub_apply]
  ring

omit [Fintype ι] in
/-- **C117** (one circuit).  A higher heat extraction rate needs a lower inlet temperature. -/
theorem inlet_number_decreasing {P : Tubes ι 1} (hP : Dissipative P) (hH : 0 ≤ P.H) {x x' : ℝ} (hx : x < x') {Tb : Py} {q : Option (List ℝ)} (hq : Cover Tb.toList.length q) (hf : Forward q) :
    ∃ t t', getInlet P (.num x) Tb q = .ok (.num t) ∧ getInlet P (.num x') Tb q = .ok (.num t') ∧ t' < t := by
  obtain ⟨T, h, hs, -⟩ := inlet_of_heat hP hH (Q := .num x) hq hf rfl
  obtain ⟨T', h', hs', -⟩ := inlet_of_heat hP hH (Q := .num x') hq hf rfl
  obtain ⟨v, v', t, t', e1, e2, e3, e4, hlt⟩ := inlet_decreasing hP hH hq hf h h'
  cases T with
  | arr l => cases hs.1
  | num a =>
    cases T' with
    | arr l => cases hs'.1
    | num b =>
      simp only [Py.toList, List.ofFn_succ, List.ofFn_zero, List.cons.injEq, and_true] at e1 e2 e3 e4
      refine ⟨a, b, h, h', ?_⟩
      have := hlt fun h0 => by rw [e1, e2, h0] at hx; exact lt_irrefl _ hx
      rw [Fin.sum_univ_one, ← e1, ← e2, ← e3, ← e4] at this
      nlinarith

omit [Fintype ι] in
/-- One circuit. -/
theorem scalar_dissipative {P : Tubes ι 1} (hw : 0 < P.mcpIn 0) (h : ∀ k zu, Edges zu k P.H → ∃ c, P.outlet k zu = some c ∧ c.1 0 0 < 1) : Dissipative P := by
  intro k zu hz
  obtain ⟨c, hc, hlt⟩ := h k zu hz
  refine ⟨c, hc, fun x hx => ?_⟩
  have hx0 : x 0 ≠ 0 := by
    intro h0
    exact hx (funext fun i => by rw [Subsingleton.elim i 0, h0]; rfl)
  have h2 : 0 < x 0 ^ 2 := by positivity
  simp only [Fin.sum_univ_one, mulVec, dotProduct]
  have : x 0 * (P.mcpIn 0 * (c.1 0 0 * x 0 - x 0)) = -(P.mcpIn 0 * (1 - c.1 0 0) * x 0 ^ 2) := by ring
  rw [this]
  have : 0 < 1 - c.1 0 0 := by linarith
  have := mul_pos (mul_pos hw this) h2
  linarith

/-- **C117** (single U-tubes and coaxial pipes, with any flow direction). -/
theorem uTube_dissipative {t : UTube} (hv : t.Valid) {m cp : ℝ} (hm : m ≠ 0) (hc : 0 < cp) : Dissipative (ofUTube t m cp) :=
  scalar_dissipative (P := ofUTube t m cp) (mul_pos (abs_pos.mpr hm) hc) fun _ _ _ => ⟨_, rfl, UTube.outA_lt hv hm hc⟩

/-- **C117** (several U-tubes in parallel or in series). -/
theorem multiple_dissipative {n : ℕ} {Rd : Matrix (Multi.P n) (Multi.P n) ℝ} (hR : Multi.Circuit Rd) {c : Multi.Config} {reversible : Bool} {m cp : ℝ}
    (hf : Multi.Flowing n reversible m cp) {e : Multi.Eig n} (he : e.Of (Multi.odeA Rd (Multi.multiple c n reversible m cp).mcp)) {H : ℝ} (hH : 0 < H) :
    Dissipative (ofMulti (Multi.multiple c n reversible m cp) Rd e H) := by
  refine scalar_dissipative (mul_pos (abs_pos.mpr hf.hm) hf.hcp) fun k zu hz => ?_
  obtain ⟨S, hS⟩ := Multi.multiple_regular (k := k) (zu := zu) hR hf he hH
  obtain ⟨co, hco⟩ : ∃ co, (Multi.mkBore k (Multi.multiple c n reversible m cp) Rd e zu H).outletCoef = some co := ⟨_, by unfold Multi.Bore.outletCoef; rw [hS]; rfl⟩
  have hh : ∀ v : Fin k, ∃ d, (Multi.mkBore k (Multi.multiple c n reversible m cp) Rd e zu H).heatCoef zu v = some d := fun v => by
    unfold Multi.Bore.heatCoef Multi.Bore.tempCoef
    rw [hS]
    exact ⟨_, rfl⟩
  choose d hd using hh
  have := Multi.multiple_thermal hR hf he hH hz (p := ⟨fun _ _ => co.1 0 0, fun _ _ s => co.2 0 s, fun _ _ v => (d v).1 0, fun _ _ => Matrix.of fun v s => (d v).2 s⟩) ⟨by
    rw [hco]
    congr 1
    refine Prod.ext ?_ ?_
    · funext i j
      rw [Subsingleton.elim i 0, Subsingleton.elim j 0]
    · funext i s
      rw [Subsingleton.elim i 0], fun v => by
    rw [hd]
    congr 1
    refine Prod.ext ?_ rfl
    funext j
    rw [Subsingleton.elim j 0]⟩
  exact ⟨co, hco, this.heated⟩

/-- **C117** (independent U-tubes). -/
theorem independent_dissipative {n : ℕ} {Rd : Matrix (Multi.P n) (Multi.P n) ℝ} (hR : Multi.Circuit Rd) {reversible : Bool} {m cp : Fin n → ℝ} (hm : ∀ i, m i ≠ 0) (hcp : ∀ i, 0 < cp i)
    (h : ∀ i, 0 < m i ∨ reversible = true) {e : Multi.Eig n} (he : e.Of (Multi.odeA Rd (Multi.independent n reversible m cp).mcp)) {H : ℝ} (hH : 0 < H) :
    Dissipative (ofMulti (Multi.independent n reversible m cp) Rd e H) := by
  intro k zu hz
  have ha := Multi.independent_aligned (cp := cp) hm h
  have hw : ∀ i, 0 < |m i| * cp i := fun i => mul_pos (abs_pos.mpr (hm i)) (hcp i)
  have hmne := Multi.aligned_mcp_ne ha fun i => (hw i).ne'
  obtain ⟨-, -, To, -, -, -, hTo, -⟩ := Multi.independent_profile hR hH hz hm hcp h he 0 (0 : Fin k → ℝ)
  cases hco : (Multi.mkBore k (Multi.independent n reversible m cp) Rd e zu H).outletCoef with
  | none =>
    unfold Multi.Bore.outletT at hTo
    rw [hco] at hTo
    cases hTo
  | some co =>
    refine ⟨co, hco, fun x hx => ?_⟩
    obtain ⟨q, T, Tout, Qf, -, -, h3, -, -, -, -, h8, -⟩ := Multi.independent_profile hR hH hz hm hcp h he x (0 : Fin k → ℝ)
    have e1 : Tout = co.1 *ᵥ x := by
      unfold Multi.Bore.outletT at h3
      rw [hco] at h3
      rw [← Option.some.inj h3]
      dsimp only
      rw [mulVec_zero, add_zero]
    obtain ⟨b1, b2⟩ := Multi.bore_downhill hR hmne hH hz ((Multi.isol_iff hm h x (0 : Fin k → ℝ) T Tout).mpr h8) ha
    simp only [Pi.zero_apply, zero_mul, Finset.sum_const_zero, h8.inlet, h8.outlet] at b1 b2
    have hle : ∑ i, x i * (|m i| * cp i * ((co.1 *ᵥ x) i - x i)) ≤ (∑ i, |m i| * cp i * (Tout i ^ 2 - x i ^ 2)) / 2 := by
      rw [Finset.sum_div, ← e1]
      refine Finset.sum_le_sum fun i _ => ?_
      have := mul_nonneg (hw i).le (sq_nonneg (Tout i - x i))
      nlinarith
    refine lt_of_le_of_lt hle (lt_of_not_ge fun hge => ?_)
    obtain ⟨v, hv⟩ := b2 hge
    exact hx (funext fun i => by rw [← h8.inlet i, hv]; rfl)

/-- **C117** (after a history of calls).  Where the stored results are those of a new object (C42), the coefficients for the inlet temperature are returned. -/
theorem returns_inlet {n : ℕ} {fmt : (Fin ni → ℝ) → (Fin ni → ℝ) → Multi.Conn n ni ni} {eig : Matrix (Multi.P n) (Multi.P n) ℝ → Multi.Eig n} {edges : ℕ → Option (List ℝ) → ℕ → ℝ} {H : ℝ}
    {Rd : Matrix (Multi.P n) (Multi.P n) ℝ} {s} {a : MultiCache.Args ni}
    (h : MultiCache.Returns (fmt := fmt) (eig := eig) (edges := edges) (H := H) s a (MultiCache.fresh fmt eig edges H Rd a))
    (hP : Dissipative (ofMulti (fmt a.m a.cp) Rd (eig (Multi.odeA Rd (fmt a.m a.cp).mcp)) H)) (hz : Edges (edges a.n a.ratios) a.n H) :
    ∃ c, (ofMulti (fmt a.m a.cp) Rd (eig (Multi.odeA Rd (fmt a.m a.cp).mcp)) H).inlet a.n (edges a.n a.ratios) = some c ∧
      (MultiCache.callInlet (MultiCache.tubes fmt eig edges H) a s).1 = some ⟨a.n, c⟩ := by
  obtain ⟨d, hd, -, hu⟩ := fluid_some hP hz
  refine ⟨(d.1⁻¹, -(d.1⁻¹ * d.2)), by unfold Tubes.inlet; rw [hd, Option.bind_some, if_pos hu], ?_⟩
  exact (h.inlet d hd).1 hu

/-! ### Cases -/

/-- A U-tube with backward flow: an inlet temperature for 500 W. -/
example : ∃ T, getInlet (ofUTube (UTube.sample true) (-1) 4) (.num 500) (.arr [5, 6]) (some [1 / 4, 3 / 4]) = .ok T ∧ SameForm (.num 500) T :=
  let ⟨T, h1, h2, _⟩ := inlet_of_heat (Q := .num 500) (Tb := .arr [5, 6]) (q := some [1 / 4, 3 / 4]) (uTube_dissipative (UTube.sample_valid true) (m := -1) (cp := 4) (by norm_num) (by norm_num)) (UTube.sample_valid true).H.le
    (show Cover 2 (some [1 / 4, 3 / 4]) from ⟨rfl, by norm_num⟩) (by intro l hl; cases hl; norm_num) rfl
  ⟨T, h1, h2⟩

/-- Three independent U-tubes with different flow rates and heat extraction rates. -/
example : ∃ e : Multi.Eig 3, ∃ T, getInlet (ofMulti (Multi.independent 3 true (fun i => i + 1) (fun _ => 4)) (fun _ _ => 1) e 100) (.arr [100, -20, 0]) (.num 10) none = .ok T := by
  have hR : Multi.Circuit (n := 3) (fun _ _ => 1) := ⟨fun _ _ => one_pos, rfl⟩
  obtain ⟨e, he⟩ := Multi.eig_exists hR (Multi.independent 3 true (fun i => i + 1) (fun _ => 4)).mcp
  obtain ⟨T, hT, -⟩ := inlet_of_heat (P := ofMulti (Multi.independent 3 true (fun i => i + 1) (fun _ => 4)) (fun _ _ => 1) e 100) (Q := .arr [100, -20, 0]) (Tb := .num 10) (q := none)
    (independent_dissipative hR (fun i => by positivity) (fun _ => by norm_num) (fun _ => .inr rfl) he (by norm_num)) (by norm_num [ofMulti]) (show Cover 1 none from one_pos)
    (by intro l hl; cases hl) rfl
  exact ⟨e, T, hT⟩

/-- Two U-tubes in series: 10 W more need a lower inlet temperature. -/
example : ∃ e : Multi.Eig 2, ∃ t t', getInlet (ofMulti (Multi.multiple .series 2 true (-1) 4) (fun _ _ => 1) e 100) (.num 500) (.num 10) none = .ok (.num t) ∧
    getInlet (ofMulti (Multi.multiple .series 2 true (-1) 4) (fun _ _ => 1) e 100) (.num 510) (.num 10) none = .ok (.num t') ∧ t' < t := by
  have hR : Multi.Circuit (n := 2) (fun _ _ => 1) := ⟨fun _ _ => one_pos, rfl⟩
  obtain ⟨e, he⟩ := Multi.eig_exists hR (Multi.multiple .series 2 true (-1) 4).mcp
  exact ⟨e, inlet_number_decreasing (P := ofMulti (Multi.multiple .series 2 true (-1) 4) (fun _ _ => 1) e 100) (Tb := .num 10) (q := none)
    (multiple_dissipative hR ⟨by norm_num, by norm_num, by norm_num, .inr rfl⟩ he (by norm_num)) (by norm_num [ofMulti]) (by norm_num) (show Cover 1 none from one_pos)
    (by intro l hl; cases hl)⟩

/-- After calls with the opposite flow direction. -/
example : ∃ c, (MultiCache.callInlet (MultiCache.tubes (fun m cp => Multi.multiple .series 2 true (m 0) (cp 0)) MultiCache.someEig (fun _ _ k => 100 * (k : ℝ)) 100) MultiCache.aPos
    (MultiCache.run (MultiCache.multipleTubes .series true MultiCache.someEig (fun _ _ k => 100 * (k : ℝ)) 100) (fun i j => if i = j then 1 else 2) [.outlet MultiCache.aNeg, .fluid MultiCache.aNeg])).1 =
    some ⟨1, c⟩ := by
  have hR : Multi.Circuit (n := 2) (fun i j => if i = j then 1 else 2) := ⟨fun i j => by split_ifs <;> norm_num, by
    ext i j
    show (if j = i then (1 : ℝ) else 2) = if i = j then 1 else 2
    simp [eq_comm]⟩
  have hf : ∀ a, a = MultiCache.aPos ∨ a = MultiCache.aNeg → Multi.Flowing 2 true (a.m 0) (a.cp 0) := by
    rintro a (rfl | rfl)
    · exact ⟨by norm_num, by simp [MultiCache.aPos], by simp [MultiCache.aPos], .inr rfl⟩
    · exact ⟨by norm_num, by simp [MultiCache.aNeg], by simp [MultiCache.aNeg], .inr rfl⟩
  have h := MultiCache.multiple_history_partial (c := .series) (rev := true) (eig := MultiCache.someEig) (edges := fun _ _ k => 100 * (k : ℝ)) (by norm_num : (0 : ℝ) < 100) MultiCache.apart_sample hf (MultiCache.someEig_decomposes _ _) hR
    [.outlet MultiCache.aNeg, .fluid MultiCache.aNeg] (by intro c hc; fin_cases hc <;> simp [MultiCache.Call.within]) MultiCache.aPos (.inl rfl)
  obtain ⟨c, -, hc⟩ := returns_inlet h (multiple_dissipative hR (hf _ (.inl rfl)) (MultiCache.someEig_decomposes (fun m cp => Multi.multiple .series 2 true (m 0) (cp 0)) (fun _ => True) _ MultiCache.aPos hR trivial) (by norm_num))
    ⟨by norm_num [MultiCache.aPos], by norm_num, by norm_num [MultiCache.aPos], fun i j hij _ => by
      have : (i : ℝ) ≤ j := by exact_mod_cast hij
      linarith⟩
  exact ⟨c, hc⟩

end Verif.Pipe.Get
