import Verif.Gf.RefineLemmas

/-!
# Finer segments and the g-function with a uniform temperature

The first value of the g-function with a uniform temperature (and every value under the threshold for linearization) never increases when segments are divided.
-/

noncomputable section

namespace Verif.Gf

open Bore FLS Sol

variable {alpha rb thr : ℝ} {bs : List Borehole} {ns ns' : List ℕ} {rs rs' : List (List ℝ)} {time : List ℝ} {K : ℝ → Bool → Borehole → Borehole → ℝ}

/-- The first value, and those under the threshold, come from rates that give a uniform temperature. -/
theorem first_value (hK : ∀ t s r, K t true s r = fls t alpha (pairOf s r) true true) (hU : Upright rb bs) (h : Splits bs ns rs)
    (hpos : ∀ t ∈ time, 0 < t) (hs : time.Pairwise (· < ·)) (hthr : 0 < thr) {g : List ℝ} {Qs : List (Fin (segmentList bs ns rs).length → ℝ)}
    (hout : temperatureDetailed K bs ns rs time thr = some (g, Qs)) {k : ℕ} {t : ℝ} (hk : time[k]? = some t) (hkt : k = 0 ∨ t ≤ thr) :
    ∃ (T : ℝ) (Q : Fin (segmentList bs ns rs).length → ℝ), g[k]? = some (if t ≤ thr then T * t / thr else T) ∧
      (∀ i, T = ∑ j, segmentResponse alpha bs ns rs i j (if t ≤ thr then thr else t) * Q j) ∧ MeanOne (segmentLengths bs ns rs) Q := by
  unfold temperatureDetailed at hout
  rw [if_pos fun t _ => (detailed_value hK hU h t).1] at hout
  have hsle := hs.imp fun {a b : ℝ} (h : a < b) => h.le
  obtain ⟨-, -, -, m4⟩ := ubwt_mean_one hout
  have hi := timeLong_increasing hpos hs hthr
  have e : responses K bs ns rs (timeLong time thr) = fun i j => (timeLong time thr).map (segmentResponse alpha bs ns rs i j) := by
    funext i j; exact responses_sampled hK hU h _ i j
  have hstep : ∀ τ ts x, timeLong time thr = τ :: ts → ubwtStep (segmentLengths bs ns rs) (timeLong time thr) (responses K bs ns rs (timeLong time thr)) [] 0 = some x →
      (∀ i, x.2 = ∑ j, segmentResponse alpha bs ns rs i j τ * x.1 j) ∧ MeanOne (segmentLengths bs ns rs) x.1 := fun τ ts x htl hx => by
    rw [e, htl] at hx
    rw [htl] at hi
    exact ubwt_first (segmentResponse alpha bs ns rs) hi hx
  by_cases ht : t ≤ thr
  · obtain ⟨x, hx, hv⟩ := m4 hsle ⟨k, t, hk, ht⟩
    have hp := (pLong_iff hsle thr k t hk).mpr ht
    have htl : timeLong time thr = thr :: time.drop (pLong time thr) := by unfold timeLong; rw [if_pos (by omega)]
    obtain ⟨c1, c2⟩ := hstep _ _ x htl hx
    exact ⟨x.2, x.1, by rw [(hv k t hk ht).1, if_pos ht], by rw [if_pos ht]; exact c1, c2⟩
  · have hk0 : k = 0 := hkt.resolve_right ht
    subst hk0
    cases time with
    | nil => simp at hk
    | cons t0 ts =>
      have ht0 : t0 = t := by simpa using hk
      subst ht0
      have hp : pLong (t0 :: ts) thr = 0 := by simp [pLong, ht]
      have htl : timeLong (t0 :: ts) thr = t0 :: ts := by unfold timeLong; rw [hp]; simp
      unfold ubwt at hout
      dsimp only at hout
      split at hout
      · simp at hout
      · rename_i l hl
        obtain ⟨e1, -⟩ := Prod.mk.inj (Option.some.inj hout)
        obtain ⟨hlen, hst'⟩ := ubwtLoop_spec hl
        obtain ⟨x, hx⟩ : ∃ x, l[0]? = some x := ⟨l[0]'(by rw [hlen, htl]; simp), List.getElem?_eq_getElem _⟩
        obtain ⟨c1, c2⟩ := hstep t0 ts x htl (by simpa using hst' 0 x hx)
        refine ⟨x.2, x.1, ?_, by rw [if_neg ht]; exact c1, c2⟩
        rw [if_neg ht, ← e1]
        unfold linearize
        rw [hp, if_neg (by omega), List.getElem?_map, hx]
        rfl

theorem segment_upright (hU : Upright rb bs) (h : Splits bs ns rs) {s : Borehole} (hs : s ∈ segmentList bs ns rs) : s.tilt = 0 ∧ s.rb = rb ∧ 0 < s.H := by
  unfold segmentList at hs
  obtain ⟨x, hx, hsx⟩ := List.mem_flatMap.mp hs
  have hb := (List.of_mem_zip hx).1
  have hr := (List.of_mem_zip (List.of_mem_zip hx).2).2
  have key : ∀ (a : ℝ) (r : List ℝ), (∀ ρ ∈ r, 0 < ρ) → s ∈ segsFrom x.1 a r → s.tilt = 0 ∧ s.rb = rb ∧ 0 < s.H := by
    intro a r
    induction r generalizing a with
    | nil => intro _ h; simp [segsFrom] at h
    | cons ρ r ih =>
      intro hp hm
      rcases List.mem_cons.mp hm with rfl | hm
      · exact ⟨hU.tilt x.1 hb, hU.rb x.1 hb, mul_pos (hp ρ List.mem_cons_self) (hU.H x.1 hb)⟩
      · exact ih (a + ρ) (fun y hy => hp y (List.mem_cons_of_mem _ hy)) hm
  rw [segments_eq] at hsx
  exact key 0 _ (h.pos _ hr) hsx

/-- **C122.** Dividing segments never increases the first value of the g-function with a uniform temperature, nor the values under the threshold for linearization. -/
theorem temperature_refined (ha : 0 < alpha) (hK : ∀ t s r, K t true s r = fls t alpha (pairOf s r) true true) (hU : Upright rb bs) (hsp : Spaced rb bs)
    (h : Splits bs ns rs) (h' : Splits bs ns' rs') (hd : List.Forall₂ Divides rs rs')
    (hpos : ∀ t ∈ time, 0 < t) (hs : time.Pairwise (· < ·)) (hthr : 0 < thr)
    {g : List ℝ} {Qs : List (Fin (segmentList bs ns rs).length → ℝ)} (hout : temperatureDetailed K bs ns rs time thr = some (g, Qs))
    {g' : List ℝ} {Qs' : List (Fin (segmentList bs ns' rs').length → ℝ)} (hout' : temperatureDetailed K bs ns' rs' time thr = some (g', Qs'))
    {k : ℕ} {t : ℝ} (hk : time[k]? = some t) (hkt : k = 0 ∨ t ≤ thr) : ∃ v v', g[k]? = some v ∧ g'[k]? = some v' ∧ v' ≤ v := by
  obtain ⟨T, Q, hg, hT, hQ⟩ := first_value hK hU h hpos hs hthr hout hk hkt
  obtain ⟨T', Q', hg', hT', hQ'⟩ := first_value hK hU h' hpos hs hthr hout' hk hkt
  have htp := hpos t (List.mem_of_getElem? hk)
  obtain ⟨τ, hτ⟩ : ∃ τ, τ = if t ≤ thr then thr else t := ⟨_, rfl⟩
  rw [← hτ] at hT hT'
  have hτ0 : 0 < τ := by rw [hτ]; split_ifs <;> assumption
  obtain ⟨P, hP, hE⟩ := (cut_segmentList hU.tilt h.consistent h'.consistent hd).energy (F := fun b c => fls τ alpha (pairOf b c) true true)
    (fun s hs c hc u hp hu => by
      obtain ⟨s1, s2, s3⟩ := segment_upright hU h hs
      obtain ⟨-, -, c3⟩ := segment_upright hU h' hc
      exact response_sources τ alpha s1 (by rw [s2]; exact hU.rb_pos) s3 c3 hp hu true true)
    (fun s hs c hc u hp hu => by
      obtain ⟨-, s2, s3⟩ := segment_upright hU h hs
      obtain ⟨c1, -, c3⟩ := segment_upright hU h hc
      exact response_receivers τ alpha c1 (by rw [s2]; exact hU.rb_pos) s3 c3 hp hu true true) Q
  have e : ∑ i, segmentLengths bs ns rs i = ∑ i, segmentLengths bs ns' rs' i := by
    have a1 : ∀ (ns : List ℕ) (rs : List (List ℝ)), Splits bs ns rs → ∑ i, segmentLengths bs ns rs i = (bs.map Borehole.H).sum := fun ns rs h => by
      rw [← segmentList_H h]
      exact Fin.sum_univ_fun_getElem _ Borehole.H
    rw [a1 ns rs h, a1 ns' rs' h']
  have hQ1 : ∑ i, segmentLengths bs ns rs i * Q i = ∑ i, segmentLengths bs ns rs i := hQ
  have hQ2 : ∑ i, segmentLengths bs ns' rs' i * Q' i = ∑ i, segmentLengths bs ns' rs' i := hQ'
  have hP' : ∑ i, segmentLengths bs ns' rs' i * P i = ∑ i, segmentLengths bs ns rs i * Q i := hP
  have hleast := energy_least (H := segmentLengths bs ns' rs') (F := fun i j => segmentResponse alpha bs ns' rs' i j τ) (responses_definite ha hU h' hsp hτ0)
    (segment_reciprocity hU h' τ) hT' (P := P) (by rw [hP', hQ1, hQ2, e])
  have hcoarse : ∑ i, segmentLengths bs ns' rs' i * P i * ∑ j, segmentResponse alpha bs ns' rs' i j τ * P j = T * ∑ i, segmentLengths bs ns rs i := by
    refine hE.trans ?_
    rw [← hQ1, Finset.mul_sum]
    exact Finset.sum_congr rfl fun i _ => by
      rw [hT i]
      exact mul_comm _ _
  rw [hcoarse, hQ2, ← e] at hleast
  obtain ⟨bore, hst, -⟩ := segment_data hU h
  have hS : 0 < ∑ i, segmentLengths bs ns rs i := Finset.sum_pos (fun i _ => hst.len i) ⟨⟨0, segments_nonempty hU h⟩, Finset.mem_univ _⟩
  have hle : T' ≤ T := le_of_mul_le_mul_right hleast hS
  refine ⟨_, _, hg, hg', ?_⟩
  split_ifs
  · gcongr
  · exact hle

/-! ### Uniform segments -/

theorem replicate_divides {n m : ℕ} (hn : 0 < n) (hm : 0 < m) (k : ℕ) : Divides (List.replicate k (1 / (n : ℝ))) (List.replicate (m * k) (1 / ((m * n : ℕ) : ℝ))) := by
  induction k with
  | zero => exact .nil
  | succ k ih =>
    have hn' : (0 : ℝ) < n := by exact_mod_cast hn
    have hm' : (0 : ℝ) < m := by exact_mod_cast hm
    have e : (List.replicate m (1 / ((m * n : ℕ) : ℝ))).sum = 1 / (n : ℝ) := by
      rw [List.sum_replicate, nsmul_eq_mul]
      push_cast
      field_simp
    rw [List.replicate_succ, mul_add, mul_one, add_comm, ← List.replicate_append_replicate]
    have := Divides.cons (List.replicate m (1 / ((m * n : ℕ) : ℝ))) (fun x hx => by
      obtain ⟨-, rfl⟩ := List.mem_replicate.mp hx
      positivity) (by simp; omega) ih
    rwa [e] at this

/-- Equal segments divided into `m` equal parts. -/
theorem uniform_divides {n m : ℕ} (hn : 0 < n) (hm : 0 < m) : Divides (uniformRatios n) (uniformRatios (m * n)) := replicate_divides hn hm n

theorem uniform_splits (bs : List Borehole) {n : ℕ} (hn : 0 < n) : Splits bs (List.replicate bs.length n) (List.replicate bs.length (uniformRatios n)) := by
  refine ⟨⟨by simp, by simp [uniformRatios]⟩, fun r hr ρ hρ => ?_, fun r hr => ?_⟩
  · obtain ⟨-, rfl⟩ := List.mem_replicate.mp hr
    obtain ⟨-, rfl⟩ := List.mem_replicate.mp hρ
    positivity
  · obtain ⟨-, rfl⟩ := List.mem_replicate.mp hr
    unfold uniformRatios
    have hn' : (0 : ℝ) < n := by exact_mod_cast hn
    rw [List.sum_replicate, nsmul_eq_mul]
    field_simp

theorem forall₂_replicate {α : Type*} {R : α → α → Prop} {a b : α} (h : R a b) (k : ℕ) : List.Forall₂ R (List.replicate k a) (List.replicate k b) := by
  induction k with
  | zero => exact .nil
  | succ k ih => exact .cons h ih

/-- The g-function with a uniform temperature and `n` equal segments in every borehole. -/
def uniformSegments (K : ℝ → Bool → Borehole → Borehole → ℝ) (bs : List Borehole) (time : List ℝ) (thr : ℝ) (n : ℕ) : Option (List ℝ) :=
  (temperatureDetailed K bs (List.replicate bs.length n) (List.replicate bs.length (uniformRatios n)) time thr).map Prod.fst

/-- **C122.** With `m` times as many equal segments the first value of the g-function with a uniform temperature is not larger, nor are the values under the threshold; when the number of
segments is doubled again and again they converge to a limit between zero and every one of them. -/
theorem temperature_converges (ha : 0 < alpha) (hK : ∀ t s r, K t true s r = fls t alpha (pairOf s r) true true) (hU : Upright rb bs) (hsp : Spaced rb bs)
    (hpos : ∀ t ∈ time, 0 < t) (hs : time.Pairwise (· < ·)) (hthr : 0 < thr) {k : ℕ} {t : ℝ} (hk : time[k]? = some t) (hkt : k = 0 ∨ t ≤ thr) :
    ∃ V : ℕ → ℝ, (∀ n, 0 < n → 0 < V n ∧ ∃ g, uniformSegments K bs time thr n = some g ∧ g[k]? = some (V n)) ∧ (∀ n m, 0 < n → 0 < m → V (m * n) ≤ V n) ∧
      ∀ n, 0 < n → ∃ L, Filter.Tendsto (fun j => V (2 ^ j * n)) Filter.atTop (nhds L) ∧ 0 ≤ L ∧ ∀ j, L ≤ V (2 ^ j * n) := by
  have hex : ∀ n : ℕ, ∃ v : ℝ, 0 < n → ∃ g Qs, temperatureDetailed K bs (List.replicate bs.length n) (List.replicate bs.length (uniformRatios n)) time thr = some (g, Qs) ∧ g[k]? = some v ∧ 0 < v := by
    intro n
    by_cases hn : 0 < n
    · obtain ⟨⟨g, Qs⟩, ho⟩ := temperature_returns ha hK hU (uniform_splits bs hn) hsp hpos hs hthr
      obtain ⟨-, -, -, g0, -, hv⟩ := temperature_first ha hK hU (uniform_splits bs hn) hsp hpos hs hthr ho
      obtain ⟨v, w, h1, -, h3, -⟩ := hv k t hk hkt
      exact ⟨v, fun _ => ⟨g, Qs, ho, h1, h3⟩⟩
    · exact ⟨0, fun h => absurd h hn⟩
  choose V hV using hex
  have hmono : ∀ n m, 0 < n → 0 < m → V (m * n) ≤ V n := fun n m hn hm => by
    obtain ⟨g, Qs, ho, hg, -⟩ := hV n hn
    have hmn : 0 < m * n := Nat.mul_pos hm hn
    obtain ⟨g', Qs', ho', hg', -⟩ := hV (m * n) hmn
    obtain ⟨v, v', e, e', hle⟩ := temperature_refined ha hK hU hsp (uniform_splits bs hn) (uniform_splits bs hmn) (forall₂_replicate (uniform_divides hn hm) _) hpos hs hthr ho ho' hk hkt
    rw [hg] at e
    rw [hg'] at e'
    rwa [Option.some.inj e, Option.some.inj e']
  refine ⟨V, fun n hn => ?_, hmono, fun n hn => ?_⟩
  · obtain ⟨g, Qs, ho, hg, hp⟩ := hV n hn
    exact ⟨hp, g, by rw [uniformSegments, ho]; rfl, hg⟩
  · have hp : ∀ j, 0 < 2 ^ j * n := fun j => by positivity
    have hanti : Antitone fun j => V (2 ^ j * n) := antitone_nat_of_succ_le fun j => by
      rw [pow_succ, mul_comm (2 ^ j) 2, mul_assoc]
      exact hmono _ 2 (hp j) (by norm_num)
    have hbdd : BddBelow (Set.range fun j => V (2 ^ j * n)) := ⟨0, by
      rintro _ ⟨j, rfl⟩
      obtain ⟨_, _, _, _, h⟩ := hV _ (hp j)
      exact h.le⟩
    refine ⟨_, tendsto_atTop_ciInf hanti hbdd, le_ciInf fun j => ?_, fun j => ciInf_le hbdd j⟩
    obtain ⟨_, _, _, _, h⟩ := hV _ (hp j)
    exact h.le

/-! ### Concrete cases -/

example : Divides [1 / 4, 3 / 4] [1 / 8, 1 / 8, 1 / 4, 1 / 4, 1 / 4] := by
  have := Divides.cons [(1 : ℝ) / 8, 1 / 8] (by simp) (by simp) (Divides.cons [(1 : ℝ) / 4, 1 / 4, 1 / 4] (by simp) (by simp) .nil)
  norm_num at this ⊢
  exact this

/-- Two boreholes, one and three segments at three times, the first one under the threshold. -/
example : ∃ v v', (∃ g, uniformSegments lineKernel fieldA [10 ^ 3, 10 ^ 6, 10 ^ 9] (10 ^ 4) 1 = some g ∧ g[0]? = some v) ∧
    (∃ g, uniformSegments lineKernel fieldA [10 ^ 3, 10 ^ 6, 10 ^ 9] (10 ^ 4) 3 = some g ∧ g[0]? = some v') ∧ 0 < v' ∧ v' ≤ v := by
  obtain ⟨V, h1, h2, -⟩ := temperature_converges (alpha := 1 / 10 ^ 6) (K := lineKernel) (by norm_num) (fun _ _ _ => rfl) fieldA_upright fieldA_spaced
    (time := [10 ^ 3, 10 ^ 6, 10 ^ 9]) (by simp) (by simp; norm_num) (thr := 10 ^ 4) (by norm_num) (k := 0) rfl (.inl rfl)
  exact ⟨V 1, V 3, (h1 1 (by norm_num)).2, (h1 3 (by norm_num)).2, (h1 3 (by norm_num)).1, h2 1 3 (by norm_num) (by norm_num)⟩

end Verif.Gf
