import Verif.Sol.CausalProps
import Verif.Gf.NetworkExamples
import Verif.Gf.SolversModel
import Verif.Gf.DispatchModel

/-!
# Properties C146 and C147 for the g-function of a field

C146: which times `evaluate_g_function` can work with.  It accepts all times that do not decrease; zero and repeated times are evaluated up to the threshold for linearization, and with a uniform
heat extraction rate; with a uniform temperature a repeated time above the threshold raises.

C147: the values for the first times do not depend on the times that follow.
-/

noncomputable section

namespace Verif.Gf

open Bore Sol FLS Pipe

variable {K : ℝ → Bool → Borehole → Borehole → ℝ} {bs : List Borehole} {ns : List ℕ} {rs : List (List ℝ)}

theorem responses_any (K : ℝ → Bool → Borehole → Borehole → ℝ) (bs : List Borehole) (ns : List ℕ) (rs : List (List ℝ)) :
    Sampled (fun i j t => ((detailed (K t) bs ns rs).getD fun _ _ => 0) i j) (responses K bs ns rs) := fun _ _ _ => rfl

theorem mem_timeLong_append {a b : List ℝ} {thr t : ℝ} (ht : t ∈ timeLong a thr) : t ∈ timeLong (a ++ b) thr := by
  by_cases ha : a = []
  · subst ha
    simp [timeLong, pLong] at ht
  · obtain ⟨r, hr⟩ := timeLong_append ha b thr
    rw [hr]
    exact List.mem_append_left _ ht

/-! ### Later times -/

/-- **C147** (uniform heat extraction rate, all fields). -/
theorem uniform_append {a b : List ℝ} {thr : ℝ} {g : List ℝ} (h : uniformDetailed K bs ns rs (a ++ b) thr = some g) : uniformDetailed K bs ns rs a thr = some (g.take a.length) := by
  unfold uniformDetailed at h ⊢
  dsimp only at h ⊢
  split_ifs at h with hc
  rw [if_pos fun t ht => hc t (mem_timeLong_append ht), ← Option.some.inj h]
  congr 1
  exact uhtr_append (fun i j t => ((detailed (K t) bs ns rs).getD fun _ _ => 0) i j) (fun _ _ _ => rfl) _ a b thr

/-- **C147** (uniform temperature, all fields, detailed solver). -/
theorem temperature_append {a b : List ℝ} (h0 : ∀ t ∈ a ++ b, 0 ≤ t) (hs : (a ++ b).Pairwise (· ≤ ·)) {thr : ℝ} (hthr : 0 ≤ thr) {g : List ℝ}
    {Qs : List (Fin (segmentList bs ns rs).length → ℝ)} (h : temperatureDetailed K bs ns rs (a ++ b) thr = some (g, Qs)) :
    temperatureDetailed K bs ns rs a thr = some (g.take a.length, Qs.take a.length) := by
  unfold temperatureDetailed at h ⊢
  split_ifs at h with hc
  rw [if_pos fun t ht => hc t (mem_timeLong_append ht)]
  exact ubwt_append _ (responses_any K bs ns rs) _ h0 hs hthr h

/-- **C147** (mixed inlet temperature, all fields and networks, detailed solver). -/
theorem network_append {conn : Option (List ℤ)} {pipe : Fin bs.length → (r : List ℝ) → Net.Pipe r.length} {ks : ℝ} {m : List ℝ} {cp : ℝ} {a b : List ℝ} (h0 : ∀ t ∈ a ++ b, 0 ≤ t)
    (hs : (a ++ b).Pairwise (· ≤ ·)) {thr : ℝ} (hthr : 0 ≤ thr) {g : List ℝ} {Qs : List (Fin (segmentList bs ns rs).length → ℝ)} {Ts : Fin (segmentList bs ns rs).length → List ℝ}
    (h : mixedNetwork K bs ns rs conn pipe ks m cp (a ++ b) thr = some (g, Qs, Ts)) :
    mixedNetwork K bs ns rs conn pipe ks m cp a thr = some (g.take a.length, Qs.take a.length, fun i => (Ts i).take a.length) := by
  unfold mixedNetwork at h ⊢
  split at h
  · simp at h
  · split at h
    · simp at h
    · rename_i f hf
      unfold mixedDetailed at h ⊢
      split_ifs at h with hc
      rw [if_pos fun t ht => hc t (mem_timeLong_append ht)]
      exact mift_append _ (responses_any K bs ns rs) _ f h0 hs hthr h

/-- **C147** (the other solvers, uniform temperature and mixed inlet temperature). -/
theorem solvers_append {n : ℕ} {len : List ℝ} {F : ℝ → Option (ℕ → ℕ → ℝ)} {a b : List ℝ} (h0 : ∀ t ∈ a ++ b, 0 ≤ t) (hs : (a ++ b).Pairwise (· ≤ ·)) {thr : ℝ} (hthr : 0 ≤ thr) :
    (∀ g Qs, temperatureOf n len F (a ++ b) thr = some (g, Qs) → temperatureOf n len F a thr = some (g.take a.length, Qs.take a.length)) ∧
    ∀ f g Qs Ts, mixedOf n len F f (a ++ b) thr = some (g, Qs, Ts) → mixedOf n len F f a thr = some (g.take a.length, Qs.take a.length, fun i => (Ts i).take a.length) := by
  refine ⟨fun g Qs h => ?_, fun f g Qs Ts h => ?_⟩
  · unfold temperatureOf at h ⊢
    split_ifs at h with hc
    rw [if_pos fun t ht => hc t (mem_timeLong_append ht)]
    exact ubwt_append (fun i j t => ((F t).getD fun _ _ => 0) i j) (fun _ _ _ => rfl) _ h0 hs hthr h
  · unfold mixedOf at h ⊢
    split_ifs at h with hc
    rw [if_pos fun t ht => hc t (mem_timeLong_append ht)]
    exact mift_append (fun i j t => ((F t).getD fun _ _ => 0) i j) (fun _ _ _ => rfl) _ f h0 hs hthr h

/-! ### Repeated times -/

/-- **C146** (accepted times).  All times that do not decrease are accepted, with repetitions, and negative times become zero. -/
theorem times_accepted {t : List ℝ} (hs : t.Pairwise (· ≤ ·)) : times t = some (t.map fun x => max x 0) := by
  unfold times
  dsimp only
  refine if_pos (Or.inr ?_)
  have key : ∀ l : List ℝ, l.Pairwise (· ≤ ·) → ∀ p ∈ List.zip l l.tail, p.1 ≤ p.2 := by
    intro l
    induction l with
    | nil => intro _ p hp; simp at hp
    | cons a l ih =>
      intro hl p hp
      cases l with
      | nil => simp at hp
      | cons b l =>
        rcases List.mem_cons.mp hp with rfl | hp
        · exact (List.pairwise_cons.mp hl).1 b (by simp)
        · exact ih (List.pairwise_cons.mp hl).2 p hp
  exact key _ (List.pairwise_map.mpr (hs.imp fun h => max_le_max_right 0 h))

theorem timeLong_getElem {time : List ℝ} (hs : time.Pairwise (· ≤ ·)) {thr : ℝ} {p : ℕ} {t : ℝ} (h1 : time[p]? = some t) (h2 : time[p + 1]? = some t) (ht : thr < t) :
    ∃ q, (timeLong time thr)[q]? = some t ∧ (timeLong time thr)[q + 1]? = some t := by
  have hp : pLong time thr ≤ p := by
    by_contra hc
    have := (pLong_iff hs thr p t h1).mp (by omega)
    linarith
  unfold timeLong
  split_ifs with h
  · refine ⟨p - pLong time thr + 1, ?_, ?_⟩
    · rw [List.getElem?_cons_succ, List.getElem?_drop, show pLong time thr + (p - pLong time thr) = p by omega, h1]
    · rw [List.getElem?_cons_succ, List.getElem?_drop, show pLong time thr + (p - pLong time thr + 1) = p + 1 by omega, h2]
  · exact ⟨p, h1, h2⟩

/-- **C146** (violated).  With a uniform temperature and two or more segments, every list of times with a repeated time above the threshold raises, although it is accepted. -/
theorem repeated_time_raises {time : List ℝ} (h0 : ∀ t ∈ time, 0 ≤ t) (hs : time.Pairwise (· ≤ ·)) {thr : ℝ} (hthr : 0 ≤ thr) {p : ℕ} {t : ℝ} (h1 : time[p]? = some t)
    (h2 : time[p + 1]? = some t) (ht : thr < t) :
    times time = some time ∧ (2 ≤ (segmentList bs ns rs).length → temperatureDetailed K bs ns rs time thr = none) ∧
      ∀ n len F, 2 ≤ n → temperatureOf n len F time thr = none := by
  obtain ⟨q, e1, e2⟩ := timeLong_getElem hs h1 h2 ht
  have hn := (timeLong_sorted h0 hs hthr).1
  refine ⟨?_, fun hN => ?_, fun n len F hN => ?_⟩
  · rw [times_accepted hs]
    congr 1
    conv_rhs => rw [← List.map_id time]
    exact List.map_congr_left fun x hx => max_eq_left (h0 x hx)
  · unfold temperatureDetailed
    split_ifs
    · exact ubwt_repeated_raises _ hN _ hn e1 e2
    · rfl
  · unfold temperatureOf
    split_ifs
    · exact ubwt_repeated_raises _ hN _ hn e1 e2
    · rfl

/-! ### Early times -/

/-- **C146** (partial: distinct times above the threshold).  With a uniform temperature the g-function is returned for all times up to the threshold, in any number, with zero and with
repetitions, followed by increasing times above the threshold; it is proportional to the time up to the threshold. -/
theorem early_times_partial {alpha rb : ℝ} (ha : 0 < alpha) (hK : ∀ t s r, K t true s r = fls t alpha (pairOf s r) true true) (hU : Upright rb bs) (h : Splits bs ns rs) (hsp : Spaced rb bs)
    {thr : ℝ} (hthr : 0 < thr) {early late : List ℝ} (hne : early ≠ []) (he : ∀ t ∈ early, t ≤ thr) (hl : ∀ t ∈ late, thr < t) (hs : late.Pairwise (· < ·)) :
    ∃ v Q g Qs, temperatureDetailed K bs ns rs [thr] thr = some ([v], [Q]) ∧ temperatureDetailed K bs ns rs (thr :: late) thr = some (v :: g, Q :: Qs) ∧
      temperatureDetailed K bs ns rs (early ++ late) thr = some (early.map (fun t => v * t / thr) ++ g, early.map (fun t i => 1 + (Q i - 1) * t / thr) ++ Qs) := by
  have hpos : ∀ t ∈ thr :: late, 0 < t := fun t ht => by
    rcases List.mem_cons.mp ht with rfl | ht
    · exact hthr
    · exact hthr.trans (hl t ht)
  have hsorted : (thr :: late).Pairwise (· < ·) := List.pairwise_cons.mpr ⟨hl, hs⟩
  obtain ⟨⟨g, Qs⟩, hout⟩ := temperature_returns ha hK hU h hsp hpos hsorted hthr
  have h1 := temperature_append (a := [thr]) (b := late) (fun t ht => (hpos t ht).le) (hsorted.imp le_of_lt) hthr.le hout
  have hlen : g.length = (thr :: late).length ∧ Qs.length = (thr :: late).length := by
    have := hout
    unfold temperatureDetailed at this
    rw [if_pos fun t _ => (detailed_value hK hU h t).1] at this
    exact ⟨(ubwt_mean_one this).1, (ubwt_mean_one this).2.1⟩
  obtain ⟨v, g, rfl⟩ := List.exists_cons_of_ne_nil (show g ≠ [] by rintro rfl; simp at hlen)
  obtain ⟨Q, Qs, rfl⟩ := List.exists_cons_of_ne_nil (show Qs ≠ [] by rintro rfl; simp at hlen)
  refine ⟨v, Q, g, Qs, by simpa using h1, hout, ?_⟩
  have e := ubwt_early (segmentLengths bs ns rs) (responses K bs ns rs) hthr hne he hl
  unfold temperatureDetailed at hout ⊢
  rw [if_pos fun t _ => (detailed_value hK hU h t).1] at hout ⊢
  rw [e, hout]
  rfl

/-- **C146** (mixed inlet temperature, early times).  For every network: the values up to the threshold are proportional to the time, and the others are those of the run with the threshold in the
place of the early times. -/
theorem early_network {conn : Option (List ℤ)} {pipe : Fin bs.length → (r : List ℝ) → Net.Pipe r.length} {ks : ℝ} {m : List ℝ} {cp : ℝ} {thr : ℝ} (hthr : 0 < thr) {early late : List ℝ}
    (hne : early ≠ []) (he : ∀ t ∈ early, t ≤ thr) (hl : ∀ t ∈ late, thr < t) :
    mixedNetwork K bs ns rs conn pipe ks m cp (early ++ late) thr = (mixedNetwork K bs ns rs conn pipe ks m cp (thr :: late) thr).map fun o =>
      (early.map (fun t => o.1.headD 0 * t / thr) ++ o.1.tail, early.map (fun t i => 1 + (o.2.1.headD 0 i - 1) * t / thr) ++ o.2.1.tail,
        fun i => early.map (fun t => (o.2.2 i).headD 0 * t / thr) ++ (o.2.2 i).tail) := by
  unfold mixedNetwork
  split
  · rfl
  · split
    · rfl
    · rename_i f hf
      unfold mixedDetailed
      rw [timeLong_early hne he hl, show timeLong (thr :: late) thr = thr :: late from timeLong_early (early := [thr]) (by simp) (by simp) hl]
      split_ifs
      · exact mift_early _ f _ hthr hne he hl
      · rfl

/-! ### Examples -/

/-- Zero, a repeated early time, and two late times. -/
example : ∃ v Q g Qs, temperatureDetailed lineKernel fieldRow [2, 2, 2, 2] quarters [3600] 3600 = some ([v], [Q]) ∧
    temperatureDetailed lineKernel fieldRow [2, 2, 2, 2] quarters ([3600] ++ [7200, 86400]) 3600 = some (v :: g, Q :: Qs) ∧
    temperatureDetailed lineKernel fieldRow [2, 2, 2, 2] quarters [0, 1800, 1800, 7200, 86400] 3600 = some ([v * 0 / 3600, v * 1800 / 3600, v * 1800 / 3600] ++ g,
      [fun i => 1 + (Q i - 1) * 0 / 3600, fun i => 1 + (Q i - 1) * 1800 / 3600, fun i => 1 + (Q i - 1) * 1800 / 3600] ++ Qs) :=
  early_times_partial (alpha := 1 / 10 ^ 6) (by norm_num) (fun _ _ _ => rfl) fieldRow_upright quarters_splits fieldRow_spaced (by norm_num) (early := [0, 1800, 1800]) (late := [7200, 86400])
    (by simp) (by norm_num) (by norm_num) (by norm_num)

/-- A repeated late time is accepted and raises. -/
example : times [7200, 86400, 86400] = some [7200, 86400, 86400] ∧ temperatureDetailed lineKernel fieldRow [2, 2, 2, 2] quarters [7200, 86400, 86400] 3600 = none := by
  have h := repeated_time_raises (K := lineKernel) (bs := fieldRow) (ns := [2, 2, 2, 2]) (rs := quarters) (time := [7200, 86400, 86400]) (thr := 3600) (by norm_num) (by norm_num) (by norm_num)
    (p := 1) (t := 86400) rfl rfl (by norm_num)
  refine ⟨h.1, h.2.1 ?_⟩
  rw [← segments_total quarters_splits.consistent]
  change 2 ≤ ∑ i : Fin 4, (quarters.getD i []).length
  simp [quarters, Fin.sum_univ_succ]

/-- The evaluation for one year is the beginning of the one for longer times. -/
example : ∃ g Qs Ts, mixedNetwork lineKernel fieldRow [2, 2, 2, 2] quarters (some [-1, 0, -1, 2]) rowPipe 2 [2, 3] 4 ([1800, 7200] ++ [86400]) 3600 = some (g, Qs, Ts) ∧
    mixedNetwork lineKernel fieldRow [2, 2, 2, 2] quarters (some [-1, 0, -1, 2]) rowPipe 2 [2, 3] 4 [1800, 7200] 3600 = some (g.take 2, Qs.take 2, fun i => (Ts i).take 2) := by
  obtain ⟨⟨g, Qs, Ts⟩, hr⟩ := tube_network_returns (alpha := 1 / 10 ^ 6) (K := lineKernel) (by norm_num) (fun _ _ _ => rfl) fieldRow_upright quarters_splits fieldRow_spaced
    (time := [1800, 7200] ++ [86400]) (by norm_num) (by norm_num) (thr := 3600)
    (by norm_num) pairs_ok (ks := 2) (by norm_num) (cp := 4) (by norm_num) pairFlow_ok pairs_flow fun i => Or.inl (rowPipe_tube i).tube
  exact ⟨g, Qs, Ts, hr, network_append (by norm_num) (by norm_num) (by norm_num) hr⟩

end Verif.Gf
