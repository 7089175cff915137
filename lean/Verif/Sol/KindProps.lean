import Verif.Sol.KindModel
import Verif.Sol.SolveProps
import Verif.Gf.TempLemmas

/-!
# The option `kind` of the solvers (C137)
-/

namespace Verif.Sol

variable {n : ℕ}

/-- An interpolation which gives back its data at the abscissae, when they increase and are enough. -/
def Kind.Through (K : Kind) : Prop :=
  ∀ pts : List (ℝ × ℝ), (pts.map Prod.fst).Pairwise (· < ·) → K.need ≤ pts.length → ∀ p ∈ pts, K.value pts p.1 = some p.2

/-- Every time step is one of the times. -/
def StepsAreTimes (tl : List ℝ) : Prop := ∀ d ∈ diffs tl, d ∈ tl

/-! ### Three kinds of scipy give back their data -/

theorem last_ge {p : ℝ × ℝ} {l : List (ℝ × ℝ)} (h : ((p :: l).map Prod.fst).Pairwise (· < ·)) : ∀ q ∈ p :: l, q.1 ≤ (l.getLastD p).1 := by
  induction l generalizing p with
  | nil => intro q hq; simp at hq; simp [hq]
  | cons r l ih =>
    intro q hq
    rw [List.getLastD_cons]
    rw [List.map_cons, List.pairwise_cons] at h
    rcases List.mem_cons.mp hq with rfl | hq
    · exact (h.1 r.1 (by simp)).le.trans (ih h.2 r (by simp))
    · exact ih h.2 q hq

theorem head_le {p : ℝ × ℝ} {l : List (ℝ × ℝ)} (h : ((p :: l).map Prod.fst).Pairwise (· < ·)) {q : ℝ × ℝ} (hq : q ∈ p :: l) : p.1 ≤ q.1 := by
  rw [List.map_cons, List.pairwise_cons] at h
  rcases List.mem_cons.mp hq with rfl | hq
  · exact le_rfl
  · exact (h.1 q.1 (List.mem_map_of_mem hq)).le

theorem interpGo_data {p : ℝ × ℝ} {l : List (ℝ × ℝ)} (h : ((p :: l).map Prod.fst).Pairwise (· < ·)) : ∀ q ∈ p :: l, interpGo q.1 p l = q.2 := by
  induction l generalizing p with
  | nil => intro q hq; simp at hq; rw [hq]; rfl
  | cons r l ih =>
    have h' := h
    rw [List.map_cons, List.pairwise_cons] at h
    have hpr : p.1 < r.1 := h.1 r.1 (by simp)
    have hp : line p r p.1 = p.2 := by simp [line]
    have hr : line p r r.1 = r.2 := by
      have : r.1 - p.1 ≠ 0 := (sub_pos.mpr hpr).ne'
      simp only [line]
      field_simp
      ring
    intro q hq
    cases l with
    | nil =>
      rw [interpGo]
      rcases List.mem_cons.mp hq with rfl | hq
      · exact hp
      · rw [List.mem_singleton.mp hq]; exact hr
    | cons s l =>
      rw [interpGo]
      rcases List.mem_cons.mp hq with rfl | hq
      · rw [if_pos hpr.le, hp]
      · rcases List.mem_cons.mp hq with rfl | hq'
        · rw [if_pos le_rfl, hr]
        · have hlt : r.1 < q.1 := by
            have := h.2
            rw [List.map_cons, List.pairwise_cons] at this
            exact this.1 q.1 (List.mem_map_of_mem hq')
          rw [if_neg hlt.not_ge]
          exact ih h.2 q hq

theorem previousGo_data {p : ℝ × ℝ} {l : List (ℝ × ℝ)} (h : ((p :: l).map Prod.fst).Pairwise (· < ·)) : ∀ q ∈ p :: l, previousGo q.1 p l = q.2 := by
  induction l generalizing p with
  | nil => intro q hq; simp at hq; rw [hq]; rfl
  | cons r l ih =>
    rw [List.map_cons, List.pairwise_cons] at h
    intro q hq
    rw [previousGo]
    rcases List.mem_cons.mp hq with rfl | hq
    · rw [if_neg (h.1 r.1 (by simp)).not_ge]
    · rw [if_pos (head_le h.2 hq)]
      exact ih h.2 q hq

theorem nextGo_data {p : ℝ × ℝ} {l : List (ℝ × ℝ)} (h : ((p :: l).map Prod.fst).Pairwise (· < ·)) : ∀ q ∈ p :: l, nextGo q.1 p l = q.2 := by
  induction l generalizing p with
  | nil => intro q hq; simp at hq; rw [hq]; rfl
  | cons r l ih =>
    rw [List.map_cons, List.pairwise_cons] at h
    intro q hq
    rw [nextGo]
    rcases List.mem_cons.mp hq with rfl | hq
    · rw [if_pos le_rfl]
    · rw [if_neg (h.1 q.1 (List.mem_map_of_mem hq)).not_ge]
      exact ih h.2 q hq

theorem through_linear : Kind.linear.Through := by
  intro pts h _ q hq
  cases pts with
  | nil => simp at hq
  | cons p l =>
    change interp (p :: l) q.1 = _
    unfold interp
    dsimp only
    rw [if_pos ⟨head_le h hq, last_ge h q hq⟩, interpGo_data h q hq]

theorem within_through {f : ℝ → ℝ × ℝ → List (ℝ × ℝ) → ℝ} (m : ℕ)
    (hf : ∀ p l, ((p :: l).map Prod.fst).Pairwise (· < ·) → ∀ q ∈ p :: l, f q.1 p l = q.2) : (Kind.mk m (within f)).Through := by
  intro pts h _ q hq
  cases pts with
  | nil => simp at hq
  | cons p l =>
    change within f (p :: l) q.1 = _
    unfold within
    dsimp only
    rw [if_pos ⟨head_le h hq, last_ge h q hq⟩, hf p l h q hq]

theorem through_previous : Kind.previous.Through := within_through _ fun _ _ => previousGo_data

theorem through_next : Kind.next.Through := within_through _ fun _ _ => nextGo_data

theorem through_needing {K : Kind} (h : K.Through) (hK : K.need = 0) (m : ℕ) : (K.needing m).Through :=
  fun pts hp _ q hq => h pts hp (by rw [hK]; exact Nat.zero_le _) q hq

/-! ### The solver -/

theorem increasing_pairwise {a : ℝ} {l : List ℝ} (h : Increasing a l) : (a :: l).Pairwise (· < ·) := by
  refine List.pairwise_cons.mpr ⟨fun x hx => Gf.increasing_gt h x hx, ?_⟩
  induction l generalizing a with
  | nil => exact List.Pairwise.nil
  | cons t l ih => exact List.pairwise_cons.mpr ⟨fun x hx => Gf.increasing_gt h.2 x hx, ih h.2⟩

/-- Two interpolations of the same response factors agree at the times. -/
theorem value_at_time {K K' : Kind} (hK : K.Through) (hK' : K'.Through) {tl ys : List ℝ} (hi : Increasing 0 tl) (hl : ys.length = tl.length)
    (hn : K.need ≤ tl.length + 1) (hn' : K'.need ≤ tl.length + 1) {x : ℝ} (hx : x ∈ 0 :: tl) :
    K.value (List.zip (0 :: tl) (0 :: ys)) x = K'.value (List.zip (0 :: tl) (0 :: ys)) x := by
  have hfst : (List.zip (0 :: tl) (0 :: ys)).map Prod.fst = 0 :: tl := List.map_fst_zip (by simp [hl])
  have hlen : (List.zip (0 :: tl) (0 :: ys)).length = tl.length + 1 := by simp [hl]
  have hp : ((List.zip (0 :: tl) (0 :: ys)).map Prod.fst).Pairwise (· < ·) := by rw [hfst]; exact increasing_pairwise hi
  obtain ⟨q, hq, rfl⟩ : ∃ q ∈ List.zip (0 :: tl) (0 :: ys), q.1 = x := by
    rw [← hfst] at hx
    exact List.mem_map.mp hx
  rw [hK _ hp (by rw [hlen]; exact hn) q hq, hK' _ hp (by rw [hlen]; exact hn') q hq]

theorem stepDataKind_eq {K K' : Kind} (hK : K.Through) (hK' : K'.Through) {tl : List ℝ} {y : Fin n → Fin n → List ℝ} (hi : Increasing 0 tl)
    (hy : ∀ i j, (y i j).length = tl.length) (hn : K.need ≤ tl.length + 1) (hn' : K'.need ≤ tl.length + 1) (past : List (Fin n → ℝ)) {p : ℕ}
    (hp : (diffs tl).getD p 0 ∈ 0 :: tl) : stepDataKind K tl y past p = stepDataKind K' tl y past p := by
  have : respAtKind K tl y ((diffs tl).getD p 0) = respAtKind K' tl y ((diffs tl).getD p 0) := by
    unfold respAtKind
    congr 1
    funext i
    congr 1
    funext j
    exact value_at_time hK hK' hi (hy i j) hn hn' hp
  unfold stepDataKind
  rw [this]

theorem ubwtStepKind_congr {K K' : Kind} {H : Fin n → ℝ} {tl : List ℝ} {y : Fin n → Fin n → List ℝ} {past : List (Fin n → ℝ)} {p : ℕ}
    (h : stepDataKind K tl y past p = stepDataKind K' tl y past p) : ubwtStepKind K H tl y past p = ubwtStepKind K' H tl y past p := by
  unfold ubwtStepKind
  rw [h]

theorem miftStepKind_congr {K K' : Kind} {H : Fin n → ℝ} {f : Flow n} {tl : List ℝ} {y : Fin n → Fin n → List ℝ} {past : List (Fin n → ℝ)} {p : ℕ}
    (h : stepDataKind K tl y past p = stepDataKind K' tl y past p) : miftStepKind K H f tl y past p = miftStepKind K' H f tl y past p := by
  unfold miftStepKind
  rw [h]

theorem ubwtLoopKind_congr {K K' : Kind} {H : Fin n → ℝ} {tl : List ℝ} {y : Fin n → Fin n → List ℝ} {m : ℕ}
    (h : ∀ p < m, ∀ past, stepDataKind K tl y past p = stepDataKind K' tl y past p) : ubwtLoopKind K H tl y m = ubwtLoopKind K' H tl y m := by
  induction m with
  | zero => rfl
  | succ p ih =>
    rw [ubwtLoopKind, ubwtLoopKind, ih fun q hq => h q (by omega)]
    cases ubwtLoopKind K' H tl y p with
    | none => rfl
    | some l => dsimp only; rw [ubwtStepKind_congr (h p (by omega) _)]

theorem miftLoopKind_congr {K K' : Kind} {H : Fin n → ℝ} {f : Flow n} {tl : List ℝ} {y : Fin n → Fin n → List ℝ} {m : ℕ}
    (h : ∀ p < m, ∀ past, stepDataKind K tl y past p = stepDataKind K' tl y past p) : miftLoopKind K H f tl y m = miftLoopKind K' H f tl y m := by
  induction m with
  | zero => rfl
  | succ p ih =>
    rw [miftLoopKind, miftLoopKind, ih fun q hq => h q (by omega)]
    cases miftLoopKind K' H f tl y p with
    | none => rfl
    | some l => dsimp only; rw [miftStepKind_congr (h p (by omega) _)]

theorem diffs_getD_mem {tl : List ℝ} (h : StepsAreTimes tl) (p : ℕ) : (diffs tl).getD p 0 ∈ 0 :: tl := by
  rw [List.getD_eq_getElem?_getD]
  cases e : (diffs tl)[p]? with
  | none => simp
  | some d => exact List.mem_cons_of_mem _ (h d (List.mem_of_getElem? e))

/-- The solvers of `Verif.Sol.SolveModel` are those of the linear interpolation. -/
theorem solve_linear (H : Fin n → ℝ) (f : Flow n) (resp : List ℝ → Fin n → Fin n → List ℝ) (time : List ℝ) (thr : ℝ) :
    uhtrKind Kind.linear H resp time thr = some (uhtr H resp time thr) ∧ ubwtKind Kind.linear H resp time thr = ubwt H resp time thr ∧
    miftKind Kind.linear H f resp time thr = mift H f resp time thr := by
  have hb : Kind.linear.built (timeLong time thr) = true := by simp [Kind.built, Kind.linear]
  have hs : ∀ (tl : List ℝ) (y : Fin n → Fin n → List ℝ) past p, stepDataKind Kind.linear tl y past p = stepData tl y past p := fun _ _ _ _ => rfl
  have hu : ∀ (tl : List ℝ) (y : Fin n → Fin n → List ℝ) m, ubwtLoopKind Kind.linear H tl y m = ubwtLoop H tl y m := by
    intro tl y m
    induction m with
    | zero => rfl
    | succ p ih =>
      rw [ubwtLoopKind, ubwtLoop, ih]
      cases ubwtLoop H tl y p with
      | none => rfl
      | some l => rfl
  have hm : ∀ (tl : List ℝ) (y : Fin n → Fin n → List ℝ) m, miftLoopKind Kind.linear H f tl y m = miftLoop H f tl y m := by
    intro tl y m
    induction m with
    | zero => rfl
    | succ p ih =>
      rw [miftLoopKind, miftLoop, ih]
      cases miftLoop H f tl y p with
      | none => rfl
      | some l => rfl
  refine ⟨?_, ?_, ?_⟩
  · unfold uhtrKind; rw [if_pos hb]
  · unfold ubwtKind ubwt; rw [if_pos hb, hu]; rfl
  · unfold miftKind mift; rw [if_pos hb, hm]; rfl

/-- With too few times for the interpolation, all boundary conditions raise. -/
theorem kind_raises {K : Kind} {time : List ℝ} {thr : ℝ} (h : (timeLong time thr).length + 1 < K.need) (H : Fin n → ℝ) (f : Flow n) (resp : List ℝ → Fin n → Fin n → List ℝ) :
    uhtrKind K H resp time thr = none ∧ ubwtKind K H resp time thr = none ∧ miftKind K H f resp time thr = none := by
  have hb : ¬ K.built (timeLong time thr) = true := by simp [Kind.built]; omega
  refine ⟨?_, ?_, ?_⟩
  · unfold uhtrKind; rw [if_neg hb]
  · unfold ubwtKind; rw [if_neg hb]
  · unfold miftKind; rw [if_neg hb]

/-- A kind which needs `m` points raises with fewer of them, zero being one of the points. -/
theorem needing_raises (K : Kind) {m : ℕ} {time : List ℝ} {thr : ℝ} (h : (timeLong time thr).length + 1 < m) (H : Fin n → ℝ) (f : Flow n) (resp : List ℝ → Fin n → Fin n → List ℝ) :
    uhtrKind (K.needing m) H resp time thr = none ∧ ubwtKind (K.needing m) H resp time thr = none ∧ miftKind (K.needing m) H f resp time thr = none :=
  kind_raises (by simpa [Kind.needing] using h) H f resp

/-- With a uniform heat extraction rate, the kind of interpolation has no effect on the values. -/
theorem kind_uhtr {K : Kind} {time : List ℝ} {thr : ℝ} (h : K.need ≤ (timeLong time thr).length + 1) (H : Fin n → ℝ) (resp : List ℝ → Fin n → Fin n → List ℝ) :
    uhtrKind K H resp time thr = some (uhtr H resp time thr) := by
  unfold uhtrKind
  rw [if_pos (by simp [Kind.built, h])]

/-- When every time step is one of the times, the kind of interpolation has no effect with a uniform temperature nor with a uniform inlet temperature: same values, same
exceptions. -/
theorem kind_no_effect {K K' : Kind} (hK : K.Through) (hK' : K'.Through) {time : List ℝ} {thr : ℝ} (hi : Increasing 0 (timeLong time thr))
    (hs : StepsAreTimes (timeLong time thr)) (hn : K.need ≤ (timeLong time thr).length + 1) (hn' : K'.need ≤ (timeLong time thr).length + 1) (H : Fin n → ℝ) (f : Flow n)
    {resp : List ℝ → Fin n → Fin n → List ℝ} (hy : ∀ tl i j, (resp tl i j).length = tl.length) :
    ubwtKind K H resp time thr = ubwtKind K' H resp time thr ∧ miftKind K H f resp time thr = miftKind K' H f resp time thr := by
  have hb : K.built (timeLong time thr) = true := by simp [Kind.built, hn]
  have hb' : K'.built (timeLong time thr) = true := by simp [Kind.built, hn']
  have hstep := fun p past => stepDataKind_eq hK hK' hi (hy (timeLong time thr)) hn hn' past (diffs_getD_mem hs p)
  refine ⟨?_, ?_⟩
  · unfold ubwtKind
    rw [if_pos hb, if_pos hb', ubwtLoopKind_congr fun p _ past => hstep p past]
  · unfold miftKind
    rw [if_pos hb, if_pos hb', miftLoopKind_congr fun p _ past => hstep p past]

theorem diffsFrom_uniform (d a : ℝ) (m : ℕ) : diffsFrom a (uniform d a m) = List.replicate m d := by
  induction m generalizing a with
  | zero => rfl
  | succ m ih => rw [uniform, diffsFrom, ih, List.replicate_succ]; congr 1; ring

theorem stepsAreTimes_uniform (d : ℝ) (m : ℕ) : StepsAreTimes (d :: uniform d d m) := by
  intro x hx
  rw [diffs, diffsFrom_uniform] at hx
  rcases List.mem_cons.mp hx with rfl | hx
  · simp
  · rw [(List.mem_replicate.mp hx).2]; simp

theorem timeLong_uniform {d thr : ℝ} (hd : 0 < d) (hthr : thr ≤ d) (m : ℕ) : timeLong (d :: uniform d d m) thr = d :: uniform d d m := by
  rcases hthr.lt_or_eq with h | rfl
  · have : pLong (d :: uniform d d m) thr = 0 := by simp [pLong, h]
    unfold timeLong
    rw [this]
    simp
  · have hu : (uniform thr thr m).takeWhile (fun t => decide (t ≤ thr)) = [] := by
      cases m with
      | zero => rfl
      | succ m => rw [uniform, List.takeWhile_cons_of_neg]; simp [hd]
    have : pLong (thr :: uniform thr thr m) thr = 1 := by
      unfold pLong
      rw [List.takeWhile_cons_of_pos (by simp), hu]
      rfl
    unfold timeLong
    rw [this]
    simp

/-- On a uniform grid of times, all kinds of interpolation give the values of the linear one. -/
theorem kind_uniform_grid {K : Kind} (hK : K.Through) {d thr : ℝ} (hd : 0 < d) (hthr : thr ≤ d) {m : ℕ} (hn : K.need ≤ m + 2) (H : Fin n → ℝ) (f : Flow n)
    {resp : List ℝ → Fin n → Fin n → List ℝ} (hy : ∀ tl i j, (resp tl i j).length = tl.length) :
    uhtrKind K H resp (d :: uniform d d m) thr = some (uhtr H resp (d :: uniform d d m) thr) ∧
    ubwtKind K H resp (d :: uniform d d m) thr = ubwt H resp (d :: uniform d d m) thr ∧
    miftKind K H f resp (d :: uniform d d m) thr = mift H f resp (d :: uniform d d m) thr := by
  have htl := timeLong_uniform hd hthr m
  have hlen : K.need ≤ (timeLong (d :: uniform d d m) thr).length + 1 := by rw [htl]; simpa [uniform_length] using hn
  obtain ⟨-, h2, h3⟩ := solve_linear H f resp (d :: uniform d d m) thr
  obtain ⟨e2, e3⟩ := kind_no_effect hK through_linear (by rw [htl]; exact ⟨hd, uniform_increasing hd d m⟩) (by rw [htl]; exact stepsAreTimes_uniform d m) hlen
    (Nat.zero_le _) H f hy
  exact ⟨kind_uhtr hlen H resp, e2.trans h2, e3.trans h3⟩

theorem ubwtLoopKind_prefix {K : Kind} {H : Fin n → ℝ} {tl : List ℝ} {y : Fin n → Fin n → List ℝ} {m : ℕ} {l : List ((Fin n → ℝ) × ℝ)}
    (h : ubwtLoopKind K H tl y (m + 1) = some l) : ∃ x, ubwtLoopKind K H tl y 1 = some [x] ∧ l.head? = some x := by
  induction m generalizing l with
  | zero =>
    rw [ubwtLoopKind, ubwtLoopKind] at h
    dsimp only at h
    rw [ubwtLoopKind, ubwtLoopKind]
    dsimp only
    cases e : ubwtStepKind K H tl y (([] : List ((Fin n → ℝ) × ℝ)).map Prod.fst) 0 with
    | none => rw [e] at h; simp at h
    | some x =>
      rw [e] at h
      obtain rfl := Option.some.inj h
      exact ⟨x, rfl, rfl⟩
  | succ m ih =>
    rw [ubwtLoopKind] at h
    cases e : ubwtLoopKind K H tl y (m + 1) with
    | none => rw [e] at h; simp at h
    | some l' =>
      rw [e] at h
      dsimp only at h
      obtain ⟨x, h1, h2⟩ := ih e
      cases e' : ubwtStepKind K H tl y (l'.map Prod.fst) (m + 1) with
      | none => rw [e'] at h; simp at h
      | some z =>
        rw [e'] at h
        obtain rfl := Option.some.inj h
        refine ⟨x, h1, ?_⟩
        cases l' with
        | nil => simp at h2
        | cons a l' => simpa using h2

/-- On any grid of times, the first value and the values up to the threshold do not depend on the kind of interpolation. -/
theorem kind_first_values {K K' : Kind} (hK : K.Through) (hK' : K'.Through) {time : List ℝ} {thr : ℝ} (hi : Increasing 0 (timeLong time thr))
    (H : Fin n → ℝ) {resp : List ℝ → Fin n → Fin n → List ℝ} (hy : ∀ tl i j, (resp tl i j).length = tl.length) {g g' : List ℝ} {Qs Qs' : List (Fin n → ℝ)}
    (h : ubwtKind K H resp time thr = some (g, Qs)) (h' : ubwtKind K' H resp time thr = some (g', Qs')) :
    ∀ k < max 1 (pLong time thr), g[k]? = g'[k]? ∧ Qs[k]? = Qs'[k]? := by
  obtain ⟨tl, htl⟩ : ∃ tl, tl = timeLong time thr := ⟨_, rfl⟩
  unfold ubwtKind at h h'
  rw [← htl] at h h' hi
  split_ifs at h with hb
  split_ifs at h' with hb'
  have hn : K.need ≤ tl.length + 1 := by simpa [Kind.built] using hb
  have hn' : K'.need ≤ tl.length + 1 := by simpa [Kind.built] using hb'
  cases e : ubwtLoopKind K H tl (resp tl) tl.length with
  | none => rw [e] at h; simp at h
  | some l =>
    cases e' : ubwtLoopKind K' H tl (resp tl) tl.length with
    | none => rw [e'] at h'; simp at h'
    | some l' =>
      rw [e] at h
      rw [e'] at h'
      obtain ⟨rfl, rfl⟩ := Prod.mk.inj (Option.some.inj h)
      obtain ⟨rfl, rfl⟩ := Prod.mk.inj (Option.some.inj h')
      have hhead : l.head? = l'.head? := by
        cases tl with
        | nil =>
          obtain rfl := Option.some.inj e
          obtain rfl := Option.some.inj e'
          rfl
        | cons t ts =>
          obtain ⟨x, h1, h2⟩ := ubwtLoopKind_prefix e
          obtain ⟨x', h1', h2'⟩ := ubwtLoopKind_prefix e'
          have : ubwtLoopKind K H (t :: ts) (resp (t :: ts)) 1 = ubwtLoopKind K' H (t :: ts) (resp (t :: ts)) 1 :=
            ubwtLoopKind_congr fun p hp past => stepDataKind_eq hK hK' hi (hy _) hn hn' past (by
              obtain rfl : p = 0 := by omega
              simp [diffs])
          rw [h1, h1'] at this
          rw [h2, h2']
          exact congrArg some (List.cons.inj (Option.some.inj this)).1
      have hD : ∀ (α : Type) (s : (Fin n → ℝ) × ℝ → α) (d : α), (l.map s).headD d = (l'.map s).headD d := fun α s d => by
        cases l with
        | nil => cases l' with
          | nil => rfl
          | cons b l' => simp at hhead
        | cons a l => cases l' with
          | nil => simp at hhead
          | cons b l' => simp at hhead; simp [hhead]
      have h0 : ∀ (α : Type) (s : (Fin n → ℝ) × ℝ → α), (l.map s)[0]? = (l'.map s)[0]? := fun α s => by
        rw [← List.head?_eq_getElem?, ← List.head?_eq_getElem?, List.head?_map, List.head?_map, hhead]
      intro k hk
      unfold linearize linearizeQ
      by_cases hp : pLong time thr > 0
      · rw [if_pos hp, if_pos hp, if_pos hp, if_pos hp, hD, hD _ Prod.fst]
        have hlen : (time.take (pLong time thr)).length = pLong time thr := by rw [List.length_take]; exact min_eq_left (pLong_le time thr)
        have hk' : k < pLong time thr := by omega
        refine ⟨?_, ?_⟩
        · rw [List.getElem?_append_left (by rw [List.length_map, hlen]; exact hk'), List.getElem?_append_left (by rw [List.length_map, hlen]; exact hk')]
        · rw [List.getElem?_append_left (by rw [List.length_map, hlen]; exact hk'), List.getElem?_append_left (by rw [List.length_map, hlen]; exact hk')]
      · rw [if_neg hp, if_neg hp, if_neg hp, if_neg hp]
        obtain rfl : k = 0 := by omega
        exact ⟨h0 _ _, h0 _ _⟩

/-! ### One heat source -/

open Matrix in
theorem one_det {h0 : ℝ} (hH : h0 ≠ 0) (h : Matrix (Fin 1) (Fin 1) ℝ) : IsUnit (ubwtA (fun _ => h0) h).det := by
  refine Matrix.isUnit_det_of_right_inverse (B := fromBlocks 0 (of fun _ _ => 1 / h0) (of fun _ _ => -1) (of fun _ _ => h 0 0 / h0)) ?_
  unfold ubwtA
  rw [fromBlocks_multiply]
  ext i j
  rcases i with i | i <;> rcases j with j | j
  · have : i = j := Subsingleton.elim i j
    subst this
    simp [Matrix.mul_apply]
  · rw [Subsingleton.elim i 0]
    simp [Matrix.mul_apply]
    field_simp
    ring
  · simp
  · simp [Matrix.mul_apply, hH]

/-- The step of one heat source: the rate is one, and the value at the time step adds to the temperature of the past. -/
theorem one_step (K : Kind) {h0 : ℝ} (hH : h0 ≠ 0) {tl : List ℝ} {y : Fin 1 → Fin 1 → List ℝ} {past : List (Fin 1 → ℝ)} {p : ℕ} {h : Matrix (Fin 1) (Fin 1) ℝ} {T0 : Fin 1 → ℝ}
    (hs : stepDataKind K tl y past p = some (h, T0)) : ubwtStepKind K (fun _ => h0) tl y past p = some (fun _ => 1, T0 0 + h 0 0) := by
  unfold ubwtStepKind
  rw [hs]
  dsimp only
  cases e : linsolve (ubwtA (fun _ => h0) h) (Sum.elim (fun i => -T0 i) fun _ => ∑ _i : Fin 1, h0) with
  | none =>
    unfold linsolve at e
    rw [if_pos (one_det hH h)] at e
    simp at e
  | some X =>
    obtain ⟨h1, h2⟩ := (ubwtA_mul (fun _ => h0) h X T0 _).mp (linsolve_mul e)
    simp only [Fin.sum_univ_one] at h2
    have hX : X (.inl 0) = 1 := mul_left_cancel₀ hH (by rw [h2, mul_one])
    have h10 := h1 0
    simp only [Fin.sum_univ_one] at h10
    rw [hX, mul_one] at h10
    refine congrArg some (Prod.ext (funext fun i => ?_) h10)
    rw [Subsingleton.elim i 0]
    exact hX

/-- Steps of two kinds of interpolation: the temperatures of the past are the same. -/
theorem step_two {K K' : Kind} {tl : List ℝ} {y : Fin 1 → Fin 1 → List ℝ} {past : List (Fin 1 → ℝ)} {p : ℕ} {h : Matrix (Fin 1) (Fin 1) ℝ} {T0 : Fin 1 → ℝ} {v : ℝ}
    (hs : stepDataKind K tl y past p = some (h, T0)) (hv : K'.value (List.zip (0 :: tl) (0 :: y 0 0)) ((diffs tl).getD p 0) = some v) :
    K.value (List.zip (0 :: tl) (0 :: y 0 0)) ((diffs tl).getD p 0) = some (h 0 0) ∧ stepDataKind K' tl y past p = some (fun _ _ => v, T0) := by
  have hr : respAtKind K' tl y ((diffs tl).getD p 0) = some (fun _ _ => v) := by
    unfold respAtKind
    exact allSome_iff.mpr fun i => allSome_iff.mpr fun j => by rw [Subsingleton.elim i 0, Subsingleton.elim j 0]; exact hv
  unfold stepDataKind at hs ⊢
  rw [hr]
  cases e : respAtKind K tl y ((diffs tl).getD p 0) with
  | none => rw [e] at hs; simp at hs
  | some h' =>
    rw [e] at hs
    cases eR : allSome fun j => reconstruct (tl.take (p + 1)) (past.map (fun Q => Q j) ++ [0]) with
    | none => rw [eR] at hs; simp at hs
    | some R =>
      rw [eR] at hs
      dsimp only at hs ⊢
      cases eT : allSome (superpose y R) with
      | none => rw [eT] at hs; simp at hs
      | some T0' =>
        rw [eT] at hs
        obtain ⟨rfl, rfl⟩ := Prod.mk.inj (Option.some.inj hs)
        exact ⟨allSome_iff.mp (allSome_iff.mp e 0) 0, rfl⟩

/-- One heat source with a uniform temperature: another kind of interpolation returns as well, with the same rates, and changes each value of the g-function by exactly the
difference between the two interpolations at the time step. -/
theorem kind_one_source (K K' : Kind) {h0 : ℝ} (hH : h0 ≠ 0) {tl : List ℝ} {y : Fin 1 → Fin 1 → List ℝ} {m : ℕ} {l : List ((Fin 1 → ℝ) × ℝ)}
    (hl : ubwtLoopKind K (fun _ => h0) tl y m = some l) {v : ℕ → ℝ} (hv : ∀ p < m, K'.value (List.zip (0 :: tl) (0 :: y 0 0)) ((diffs tl).getD p 0) = some (v p)) :
    ∃ l', ubwtLoopKind K' (fun _ => h0) tl y m = some l' ∧ l.length = m ∧ l'.length = m ∧
      ∀ p < m, ∃ x x' w, l[p]? = some x ∧ l'[p]? = some x' ∧ K.value (List.zip (0 :: tl) (0 :: y 0 0)) ((diffs tl).getD p 0) = some w ∧
        x.1 = (fun _ => 1) ∧ x'.1 = (fun _ => 1) ∧ x'.2 - x.2 = v p - w := by
  induction m generalizing l with
  | zero =>
    obtain rfl := Option.some.inj hl
    exact ⟨[], rfl, rfl, rfl, fun p hp => absurd hp (by omega)⟩
  | succ m ih =>
    rw [ubwtLoopKind] at hl
    cases e : ubwtLoopKind K (fun _ => h0) tl y m with
    | none => rw [e] at hl; simp at hl
    | some l0 =>
      rw [e] at hl
      dsimp only at hl
      obtain ⟨l0', h1, hlen, hlen', h2⟩ := ih e fun p hp => hv p (by omega)
      have hpast : l0'.map Prod.fst = l0.map Prod.fst := by
        refine List.ext_getElem? fun k => ?_
        rw [List.getElem?_map, List.getElem?_map]
        by_cases hk : k < m
        · obtain ⟨x, x', w, hx, hx', -, h3, h4, -⟩ := h2 k hk
          rw [hx, hx', Option.map_some, Option.map_some, h3, h4]
        · rw [List.getElem?_eq_none (by omega), List.getElem?_eq_none (by omega)]
      cases es : stepDataKind K tl y (l0.map Prod.fst) m with
      | none => unfold ubwtStepKind at hl; rw [es] at hl; simp at hl
      | some hT =>
        obtain ⟨h, T0⟩ := hT
        obtain ⟨hw, hs'⟩ := step_two es (hv m (by omega))
        rw [one_step K hH es] at hl
        obtain rfl := Option.some.inj hl
        rw [ubwtLoopKind, h1]
        dsimp only
        rw [hpast, one_step K' hH hs']
        refine ⟨_, rfl, by simp [hlen], by simp [hlen'], fun p hp => ?_⟩
        rcases (Nat.lt_succ_iff.mp hp).lt_or_eq with hp' | rfl
        · obtain ⟨x, x', w, hx, hx', h3⟩ := h2 p hp'
          exact ⟨x, x', w, by rw [List.getElem?_append_left (by omega), hx], by rw [List.getElem?_append_left (by omega), hx'], h3⟩
        · exact ⟨_, _, _, by rw [List.getElem?_append_right (by omega), hlen, Nat.sub_self]; rfl, by rw [List.getElem?_append_right (by omega), hlen', Nat.sub_self]; rfl,
            hw, rfl, rfl, by ring⟩

/-- When the time steps are not among the times, the kind of interpolation matters: one source with the response `t` at the times 2 and 5. -/
theorem kind_matters : ∃ (resp : List ℝ → Fin 1 → Fin 1 → List ℝ) (time g g' : List ℝ) (Qs Qs' : List (Fin 1 → ℝ)),
    (∀ tl i j, (resp tl i j).length = tl.length) ∧ Increasing 0 (timeLong time 0) ∧
    ubwtKind Kind.linear (fun _ => 1) resp time 0 = some (g, Qs) ∧ ubwtKind Kind.previous (fun _ => 1) resp time 0 = some (g', Qs') ∧ Qs = Qs' ∧
      g[0]? = g'[0]? ∧ ∃ a a', g[1]? = some a ∧ g'[1]? = some a' ∧ a' = a - 1 := by
  have hi : Increasing 0 [(2 : ℝ), 5] := ⟨by norm_num, by norm_num, trivial⟩
  have hp : pLong [(2 : ℝ), 5] 0 = 0 := by simp [pLong]
  have htl : timeLong [(2 : ℝ), 5] 0 = [2, 5] := by unfold timeLong; rw [hp]; simp
  obtain ⟨out, hout⟩ := ubwt_returns (n := 1) (H := fun _ => 1) one_pos (fun _ _ t => t) (resp := fun tl _ _ => tl.map fun t => t) (fun _ _ _ => rfl)
    (time := [2, 5]) (thr := 0) (by rw [htl]; exact hi) fun h p hp hh => by
      refine Gf.definite_step (fun _ _ t => t) (by rw [htl]; exact hi) (fun t ht Q hQ => ?_) hp hh
      rw [htl] at ht
      have ht0 := Gf.increasing_gt hi t ht
      have hq : Q 0 ≠ 0 := fun h0 => hQ (funext fun i => by rw [Subsingleton.elim i 0, h0]; rfl)
      simp only [Fin.sum_univ_one]
      have := mul_pos ht0 (mul_self_pos.mpr hq)
      nlinarith
  have hout' := (solve_linear (fun _ => (1 : ℝ)) ⟨0, 0, 0, 0, 0, 0⟩ (fun tl (_ _ : Fin 1) => tl.map fun t => t) [2, 5] 0).2.1.trans hout
  have hb : ∀ K ∈ [Kind.linear, Kind.previous], K.built [(2 : ℝ), 5] = true := by
    intro K hK
    simp at hK
    rcases hK with rfl | rfl <;> simp [Kind.built, Kind.linear, Kind.previous]
  have hlin : ∀ x : List ℝ, linearize [2, 5] 0 x = x := fun x => by unfold linearize; rw [hp]; simp
  have hlinQ : ∀ x : List (Fin 1 → ℝ), linearizeQ [2, 5] 0 x = x := fun x => by unfold linearizeQ; rw [hp]; simp
  unfold ubwtKind at hout'
  rw [htl, if_pos (hb _ (by simp))] at hout'
  cases e : ubwtLoopKind Kind.linear (fun _ => (1 : ℝ)) [2, 5] (fun (_ _ : Fin 1) => [(2 : ℝ), 5].map fun t => t) [(2 : ℝ), 5].length with
  | none => rw [e] at hout'; simp at hout'
  | some l =>
    have hd0 : (diffs [(2 : ℝ), 5]).getD 0 0 = 2 := by simp [diffs]
    have hd1 : (diffs [(2 : ℝ), 5]).getD 1 0 = 3 := by simp [diffs, diffsFrom]; norm_num
    obtain ⟨l', h1, hl1, hl2, h2⟩ := kind_one_source Kind.linear Kind.previous one_ne_zero e (v := fun _ => 2) (fun p hp => by
      have : p = 0 ∨ p = 1 := by simp at hp; omega
      rcases this with rfl | rfl
      · rw [hd0]; norm_num [Kind.previous, within, previousGo]
      · rw [hd1]; norm_num [Kind.previous, within, previousGo])
    obtain ⟨x, x', w, hx, hx', hw, hx1, hx1', hd⟩ := h2 0 (by simp)
    obtain ⟨z, z', w', hz, hz', hw', hz1, hz1', hd'⟩ := h2 1 (by simp)
    have hww : w = 2 := by
      rw [hd0] at hw
      norm_num [Kind.linear, interp, interpGo, line] at hw
      exact hw.symm
    have hww' : w' = 3 := by
      rw [hd1] at hw'
      norm_num [Kind.linear, interp, interpGo, line] at hw'
      exact hw'.symm
    rw [show [(2 : ℝ), 5].length = 2 from rfl] at hl1 hl2
    have hl : l = [x, z] := by
      refine List.ext_getElem? fun k => ?_
      rcases k with _ | _ | k
      · rw [hx]; rfl
      · rw [hz]; rfl
      · rw [List.getElem?_eq_none (by omega), List.getElem?_eq_none (by simp)]
    have hl' : l' = [x', z'] := by
      refine List.ext_getElem? fun k => ?_
      rcases k with _ | _ | k
      · rw [hx']; rfl
      · rw [hz']; rfl
      · rw [List.getElem?_eq_none (by omega), List.getElem?_eq_none (by simp)]
    refine ⟨fun tl _ _ => tl.map fun t => t, [2, 5], [x.2, z.2], [x'.2, z'.2], [x.1, z.1], [x'.1, z'.1], fun _ _ _ => by simp, by rw [htl]; exact hi, ?_, ?_, ?_, ?_, z.2, z'.2, rfl, rfl, ?_⟩
    · unfold ubwtKind; rw [htl, if_pos (hb _ (by simp)), e]; dsimp only; rw [hlin, hlinQ, hl]; rfl
    · unfold ubwtKind; rw [htl, if_pos (hb _ (by simp)), h1]; dsimp only; rw [hlin, hlinQ, hl']; rfl
    · rw [hx1, hx1', hz1, hz1']
    · have : x.2 = x'.2 := by rw [hww] at hd; linarith
      rw [this]; rfl
    · rw [hww'] at hd'; linarith

/-! ### Cases -/

/-- A kind which needs four points, as the cubic one, raises with two times above the threshold, and is the same as the linear one on a uniform grid of four times. -/
example (H : Fin 2 → ℝ) (f : Flow 2) (resp : List ℝ → Fin 2 → Fin 2 → List ℝ) (hy : ∀ tl i j, (resp tl i j).length = tl.length) :
    ubwtKind (Kind.previous.needing 4) H resp [2, 5] 0 = none ∧ ubwtKind (Kind.previous.needing 4) H resp (1 :: uniform 1 1 3) 0.5 = ubwt H resp (1 :: uniform 1 1 3) 0.5 := by
  have htl : timeLong [(2 : ℝ), 5] 0 = [2, 5] := by unfold timeLong; simp [pLong]
  exact ⟨(kind_raises (by rw [htl]; simp [Kind.needing]) H f resp).2.1,
    (kind_uniform_grid (through_needing through_previous rfl 4) one_pos (by norm_num) (by simp [Kind.needing]) H f hy).2.1⟩

/-- The steps of the times 1, 2, 4, 8 are among them. -/
example : StepsAreTimes [1, 2, 4, 8] := by
  intro d hd
  simp [diffs, diffsFrom] at hd
  rcases hd with rfl | rfl | rfl | rfl <;> norm_num

end Verif.Sol
