import Verif.Sol.SolveLemmas
import Verif.Net.FlowProps

/-!
# Properties of the solution of the boundary conditions (C30, C79, C80, C81, C82)
-/

noncomputable section

namespace Verif.Sol

open Matrix Bore

variable {n : ℕ}

/-! ### Data of a step -/

/-- Response factors that are values of the functions `F i j` of time. -/
def Sampled (F : Fin n → Fin n → ℝ → ℝ) (resp : List ℝ → Fin n → Fin n → List ℝ) : Prop := ∀ tl i j, resp tl i j = tl.map (F i j)

theorem stepData_spec {tl : List ℝ} {y : Fin n → Fin n → List ℝ} {past : List (Fin n → ℝ)} {p : ℕ} {h : Matrix (Fin n) (Fin n) ℝ} {T0 : Fin n → ℝ}
    (hs : stepData tl y past p = some (h, T0)) :
    (∀ i j, interp (List.zip (0 :: tl) (0 :: y i j)) ((diffs tl).getD p 0) = some (h i j)) ∧
    ∃ R : Fin n → List ℝ, (∀ j, reconstruct (tl.take (p + 1)) (past.map (fun Q => Q j) ++ [0]) = some (R j)) ∧ ∀ i, superpose y R i = some (T0 i) := by
  unfold stepData at hs
  split at hs
  · rename_i h' R hh hR
    split at hs
    · rename_i T0' hT
      have := Option.some.inj hs
      obtain ⟨rfl, rfl⟩ := Prod.mk.inj this
      refine ⟨fun i j => ?_, R, allSome_iff.mp hR, allSome_iff.mp hT⟩
      exact allSome_iff.mp (allSome_iff.mp hh i) j
    · simp at hs
  · simp at hs

theorem interpGo_first (τ v : ℝ) (hτ : τ ≠ 0) (l : List (ℝ × ℝ)) : interpGo τ (0, 0) ((τ, v) :: l) = v := by
  cases l with
  | nil => simp [interpGo, line, hτ]
  | cons r l => simp [interpGo, line, hτ]

theorem interp_first {τ : ℝ} {ts : List ℝ} (h : Increasing 0 (τ :: ts)) (F : ℝ → ℝ) : interp (List.zip (0 :: τ :: ts) (0 :: (τ :: ts).map F)) τ = some (F τ) := by
  have hτ : 0 < τ := h.1
  have hlast : ∀ (a : ℝ) (l : List ℝ) (b : ℝ), ((List.zip l (l.map F)).getLastD (a, b)).1 = l.getLastD a := by
    intro a l b
    induction l generalizing a b with
    | nil => rfl
    | cons t l ih => rw [List.map_cons, List.zip_cons_cons, List.getLastD_cons, List.getLastD_cons, ih]
  rw [List.zip_cons_cons]
  unfold interp
  dsimp only
  have := (h.le τ (by simp)).2
  rw [if_pos ⟨hτ.le, by rw [hlast]; exact this⟩, List.map_cons, List.zip_cons_cons, interpGo_first _ _ hτ.ne']

theorem diffs_uniform (d : ℝ) (m p : ℕ) (hp : p ≤ m) : (diffs (d :: uniform d d m)).getD p 0 = d := by
  have e : d :: uniform d d m = uniform d 0 (m + 1) := by rw [uniform, zero_add]
  rw [diffs_eq, e, uniform_diffs, List.getD_eq_getElem _ _ (by simp; omega)]
  simp

theorem take_uniform (d a : ℝ) (m p : ℕ) (hp : p ≤ m) : (uniform d a m).take p = uniform d a p := by
  induction p generalizing a m with
  | zero => rfl
  | succ p ih =>
    cases m with
    | zero => omega
    | succ m => rw [uniform, uniform, List.take_succ_cons, ih _ _ (by omega)]

theorem uniform_get (d a : ℝ) (m k : ℕ) (hk : k < m) : (uniform d a m)[k]? = some (a + (k + 1) * d) := by
  induction m generalizing a k with
  | zero => omega
  | succ m ih =>
    cases k with
    | zero => simp [uniform]
    | succ k => rw [uniform, List.getElem?_cons_succ, ih _ _ (by omega)]; congr 1; push_cast; ring

theorem uniform_last (d a : ℝ) (m : ℕ) : (uniform d a m).getLastD a = a + m * d := by
  induction m generalizing a with
  | zero => simp [uniform]
  | succ m ih => rw [uniform, List.getLastD_cons, ih]; push_cast; ring

theorem uniform_length (d a : ℝ) (m : ℕ) : (uniform d a m).length = m := by
  induction m generalizing a with
  | zero => rfl
  | succ m ih => simp [uniform, ih]

theorem duhamel_last (H : ℝ → ℝ) (T prev : ℝ) (starts qs : List ℝ) (q s : ℝ) (hs : starts[qs.length]? = some s) :
    duhamel H T prev starts (qs ++ [q]) = duhamel H T prev starts (qs ++ [0]) + q * H (T - s) := by
  induction qs generalizing prev starts with
  | nil =>
    cases starts with
    | nil => simp at hs
    | cons s' ss =>
      have : s' = s := by simpa using hs
      subst this
      simp only [List.nil_append, duhamel]
      cases ss <;> simp <;> ring
  | cons q' qs ih =>
    cases starts with
    | nil => simp at hs
    | cons s' ss =>
      simp only [List.cons_append, duhamel]
      rw [ih q' ss (by simpa using hs)]
      ring

/-- On a uniform grid, the equation of a step is Duhamel's sum of the heat extraction rates up to and including the current ones. -/
theorem step_uniform (F : Fin n → Fin n → ℝ → ℝ) {d : ℝ} (hd : 0 < d) {m p : ℕ} (hp : p ≤ m) {past : List (Fin n → ℝ)} (hl : past.length = p) {h : Matrix (Fin n) (Fin n) ℝ} {T0 : Fin n → ℝ}
    (hs : stepData (d :: uniform d d m) (fun i j => (d :: uniform d d m).map (F i j)) past p = some (h, T0)) (Q : Fin n → ℝ) (i : Fin n) :
    T0 i + ∑ j, h i j * Q j = ∑ j, duhamel (F i j) ((p + 1) * d) 0 (0 :: d :: uniform d d p) (past.map (fun q => q j) ++ [Q j]) := by
  obtain ⟨h1, R, hR, hT⟩ := stepData_spec hs
  have hinc : Increasing 0 (d :: uniform d d m) := ⟨hd, uniform_increasing hd d m⟩
  have hh : ∀ i j, h i j = F i j d := fun i j => by
    have := h1 i j
    rw [diffs_uniform d m p hp, interp_first hinc (F i j)] at this
    exact (Option.some.inj this).symm
  have htake : (d :: uniform d d m).take (p + 1) = d :: uniform d d p := by rw [List.take_succ_cons, take_uniform _ _ _ _ hp]
  have hR' : R = fun j => past.map (fun q => q j) ++ [0] := funext fun j => by
    have := hR j
    rw [htake, reconstruct_uniform hd p _ (by simp [hl])] at this
    exact (Option.some.inj this).symm
  have hlast : (uniform d d p).getLastD d = (p + 1) * d := by rw [uniform_last]; ring
  have hT0 : T0 i = ∑ j, duhamel (F i j) ((p + 1) * d) 0 (0 :: d :: uniform d d p) (past.map (fun q => q j) ++ [0]) := by
    have := hT i
    rw [show (fun i j => (d :: uniform d d m).map (F i j)) = fun i j => ((d :: uniform d d p) ++ (d :: uniform d d m).drop (p + 1)).map (F i j) from by
      rw [← htake, List.take_append_drop], superpose_duhamel F d (uniform d d p) _ R (fun j => by simp [hR', hl, uniform_length]) i] at this
    have e := (Option.some.inj this).symm
    rw [e, hlast, hR', ← hlast, uniform_backward]
  have hstart : (0 :: d :: uniform d d p)[p]? = some (p * d) := by
    have e : d :: uniform d d p = uniform d 0 (p + 1) := by rw [uniform, zero_add]
    rw [e]
    cases p with
    | zero => simp
    | succ p => rw [List.getElem?_cons_succ, uniform_get _ _ _ _ (by omega)]; congr 1; push_cast; ring
  rw [hT0, ← Finset.sum_add_distrib]
  refine Finset.sum_congr rfl fun j _ => ?_
  rw [duhamel_last _ _ _ _ _ (Q j) (p * d) (by simpa [hl] using hstart), hh i j]
  congr 1
  rw [mul_comm]
  congr 2; ring

/-! ### Uniform heat extraction rate -/

/-- **C30** (threshold).  By default the values at Fourier numbers up to 1/25 are linearized; a given threshold is used as is. -/
theorem default_threshold {rb alpha : ℝ} (hr : 0 < rb) (ha : 0 < alpha) : (∀ t, t ≤ threshold none rb alpha ↔ alpha * t / rb ^ 2 ≤ 1 / 25) ∧ ∀ x, threshold (some x) rb alpha = x := by
  refine ⟨fun t => ?_, fun _ => rfl⟩
  unfold threshold
  rw [le_div_iff₀ (by positivity), div_le_div_iff₀ (by positivity) (by norm_num)]
  constructor <;> intro h <;> linarith

example : (1 : ℝ) ≤ threshold none 5 1 := ((default_threshold (by norm_num) one_pos).1 1).mpr (by norm_num)

/-- **C30** (UHTR).  One value per time.  For sorted times with threshold `thr`: above the threshold, the g-function is the average over the length of the temperatures caused by
unit heat extraction at all sources; below, it is proportional to time up to that average at the threshold. -/
theorem uhtr_average (H : Fin n → ℝ) {resp : List ℝ → Fin n → Fin n → List ℝ} {F : Fin n → Fin n → ℝ → ℝ} (hF : Sampled F resp) {time : List ℝ} (hs : time.Pairwise (· ≤ ·)) (thr : ℝ) :
    (uhtr H resp time thr).length = time.length ∧ ∀ (k : ℕ) (t : ℝ), time[k]? = some t →
      (uhtr H resp time thr)[k]? = some (if t ≤ thr then (∑ i, H i * ∑ j, F i j thr) / (∑ i, H i) * t / thr else (∑ i, H i * ∑ j, F i j t) / ∑ i, H i) := by
  obtain ⟨tl, htl⟩ : ∃ tl, tl = timeLong time thr := ⟨_, rfl⟩
  obtain ⟨x, hx⟩ : ∃ x, x = (List.range tl.length).map (uhtrG H (resp tl)) := ⟨_, rfl⟩
  have hr : uhtr H resp time thr = if pLong time thr > 0 then ((time.take (pLong time thr)).map ((fun x0 t => x0 * t / thr) (x.headD 0))) ++ x.tail else x := by
    unfold uhtr linearize
    dsimp only
    rw [← htl, ← hx]
  obtain ⟨h1, h2, h3⟩ := linearized time thr x (by rw [hx, ← htl]; simp) 0 (fun x0 t => x0 * t / thr) _ hr
  have hg : ∀ (p : ℕ) (t : ℝ), tl[p]? = some t → x[p]? = some ((∑ i, H i * ∑ j, F i j t) / ∑ i, H i) := by
    intro p t hp
    have hlt := (List.getElem?_eq_some_iff.mp hp).1
    rw [hx, List.getElem?_map, List.getElem?_range hlt, Option.map_some]
    congr 1
    unfold uhtrG uhtrT
    congr 1
    refine Finset.sum_congr rfl fun i _ => ?_
    rw [mul_comm]
    congr 1
    refine Finset.sum_congr rfl fun j _ => ?_
    rw [hF tl i j, List.getD_eq_getElem?_getD, List.getElem?_map, hp]
    rfl
  refine ⟨h1, fun k t hk => ?_⟩
  have hpk := pLong_iff hs thr k t hk
  have hlt := (List.getElem?_eq_some_iff.mp hk).1
  split_ifs with ht
  · have hkp := hpk.mpr ht
    obtain ⟨x0, hx0, hrk⟩ := h2 k t hk hkp
    have : tl[0]? = some thr := by rw [htl]; unfold timeLong; rw [if_pos (by omega)]; rfl
    rw [hg 0 thr this] at hx0
    rw [hrk, ← Option.some.inj hx0]
  · have hkp : pLong time thr ≤ k := by by_contra hc; exact ht (hpk.mp (by omega))
    rw [h3 k hkp]
    apply hg
    rw [htl, timeLong_length]
    have hle := pLong_le time thr
    unfold timeLong
    split_ifs with hp
    · rw [show k + (time.length - pLong time thr + 1) - time.length = (k - pLong time thr) + 1 by omega, List.getElem?_cons_succ, List.getElem?_drop,
        show pLong time thr + (k - pLong time thr) = k by omega, hk]
    · rw [show k + time.length - time.length = k by omega, hk]

/-! ### Uniform borehole wall temperature -/

/-- Length-weighted mean. -/
def MeanOne (H Q : Fin n → ℝ) : Prop := ∑ i, H i * Q i = ∑ i, H i

theorem meanOne_linear {H Q : Fin n → ℝ} (h : MeanOne H Q) (t thr : ℝ) : MeanOne H fun i => 1 + (Q i - 1) * t / thr := by
  unfold MeanOne at h ⊢
  have : ∀ i, H i * (1 + (Q i - 1) * t / thr) = H i + (H i * Q i - H i) * (t / thr) := fun i => by ring
  simp only [this, Finset.sum_add_distrib, ← Finset.sum_mul, Finset.sum_sub_distrib]
  rw [h]; ring

/-- **C30** (UBWT).  Whenever the solver returns, there is one value and one set of heat extraction rates per time; the rates average to one at all times; for sorted times the
g-function and the deviation of the rates from one are proportional to time up to the threshold, where they are the solution at the threshold. -/
theorem ubwt_mean_one {H : Fin n → ℝ} {resp : List ℝ → Fin n → Fin n → List ℝ} {time : List ℝ} {thr : ℝ} {g : List ℝ} {Qs : List (Fin n → ℝ)}
    (h : ubwt H resp time thr = some (g, Qs)) :
    g.length = time.length ∧ Qs.length = time.length ∧ (∀ Q ∈ Qs, MeanOne H Q) ∧
    (time.Pairwise (· ≤ ·) → (∃ (k : ℕ) (t : ℝ), time[k]? = some t ∧ t ≤ thr) →
      ∃ x, ubwtStep H (timeLong time thr) (resp (timeLong time thr)) [] 0 = some x ∧
        ∀ (k : ℕ) (t : ℝ), time[k]? = some t → t ≤ thr → g[k]? = some (x.2 * t / thr) ∧ Qs[k]? = some fun i => 1 + (x.1 i - 1) * t / thr) := by
  unfold ubwt at h
  dsimp only at h
  split at h
  · simp at h
  · rename_i l hl
    obtain ⟨rfl, rfl⟩ := Prod.mk.inj (Option.some.inj h)
    obtain ⟨hlen, hst⟩ := ubwtLoop_spec hl
    obtain ⟨g1, g2, -⟩ := linearized time thr (l.map Prod.snd) (by simp [hlen]) 0 (fun x0 t => x0 * t / thr) _ (rfl : linearize time thr (l.map Prod.snd) = _)
    obtain ⟨q1, q2, q3⟩ := linearized time thr (l.map Prod.fst) (by simp [hlen]) 0 (fun (x0 : Fin n → ℝ) t i => 1 + (x0 i - 1) * t / thr) _
      (rfl : linearizeQ time thr (l.map Prod.fst) = _)
    have hmean : ∀ x ∈ l, MeanOne H x.1 := fun x hx => by
      obtain ⟨p, hp⟩ := List.mem_iff_getElem?.mp hx
      obtain ⟨_, _, _, _, hm, _⟩ := ubwtStep_spec (hst p x hp)
      exact hm
    refine ⟨g1, q1, fun Q hQ => ?_, fun hs hex => ?_⟩
    · obtain ⟨k, hk⟩ := List.mem_iff_getElem?.mp hQ
      have hlt := (List.getElem?_eq_some_iff.mp hk).1
      rw [q1] at hlt
      by_cases hkp : k < pLong time thr
      · obtain ⟨x0, hx0, hr⟩ := q2 k _ (List.getElem?_eq_getElem hlt) hkp
        rw [hk] at hr
        rw [Option.some.inj hr]
        obtain ⟨x, hx, rfl⟩ := List.mem_map.mp (List.mem_of_getElem? hx0)
        exact meanOne_linear (hmean x hx) _ _
      · rw [q3 k (by omega)] at hk
        obtain ⟨x, hx, rfl⟩ := List.mem_map.mp (List.mem_of_getElem? hk)
        exact hmean x hx
    · obtain ⟨k0, t0, hk0, ht0⟩ := hex
      have hp0 := (pLong_iff hs thr k0 t0 hk0).mpr ht0
      obtain ⟨x0, hx0, -⟩ := g2 k0 t0 hk0 hp0
      obtain ⟨x, hx⟩ : ∃ x, l[0]? = some x := by
        rw [List.getElem?_map] at hx0
        cases hc : l[0]? with
        | none => rw [hc] at hx0; simp at hx0
        | some x => exact ⟨x, rfl⟩
      refine ⟨x, by simpa using hst 0 x hx, fun k t hk ht => ?_⟩
      have hkp := (pLong_iff hs thr k t hk).mpr ht
      obtain ⟨a, ha, hga⟩ := g2 k t hk hkp
      obtain ⟨b, hb, hqb⟩ := q2 k t hk hkp
      rw [List.getElem?_map, hx] at ha hb
      rw [hga, hqb, ← Option.some.inj ha, ← Option.some.inj hb]
      exact ⟨rfl, rfl⟩

/-- The first step: the wall temperature is uniform under the response of the heat extraction rates. -/
theorem ubwt_first {H : Fin n → ℝ} (F : Fin n → Fin n → ℝ → ℝ) {τ : ℝ} {ts : List ℝ} (hi : Increasing 0 (τ :: ts)) {x : (Fin n → ℝ) × ℝ}
    (h : ubwtStep H (τ :: ts) (fun i j => (τ :: ts).map (F i j)) [] 0 = some x) : (∀ i, x.2 = ∑ j, F i j τ * x.1 j) ∧ MeanOne H x.1 := by
  obtain ⟨hdt, T0, hs, h1, h2, -⟩ := ubwtStep_spec h
  obtain ⟨a, R, hR, hT⟩ := stepData_spec hs
  refine ⟨fun i => ?_, h2⟩
  have hh : ∀ j, hdt i j = F i j τ := fun j => by
    have := a i j
    rw [show (diffs (τ :: ts)).getD 0 0 = τ from rfl, interp_first hi] at this
    exact (Option.some.inj this).symm
  have hR' : R = fun _ => [0] := funext fun j => by
    have := hR j
    rw [show (τ :: ts).take (0 + 1) = [τ] from rfl] at this
    have c := reconstruct_const 0 τ [] ⟨hi.1, trivial⟩
    simp only [List.length_cons, List.length_nil, zero_add, List.replicate_one, List.map_nil, List.nil_append] at c this
    rw [c] at this
    exact (Option.some.inj this).symm
  have hT0 : T0 i = 0 := by
    have := hT i
    rw [hR'] at this
    unfold superpose at this
    rw [if_pos (by simp)] at this
    rw [← Option.some.inj this]
    simp [diffs, diffsFrom]
  rw [h1 i, hT0, zero_add]
  simp only [hh]

/-- **C81**.  On a uniform grid of times, the value of the g-function is, for every source, the temporal and spatial superposition of the heat extraction rates at all steps. -/
theorem ubwt_superposition {H : Fin n → ℝ} (F : Fin n → Fin n → ℝ → ℝ) {d : ℝ} (hd : 0 < d) (m : ℕ) {l : List ((Fin n → ℝ) × ℝ)}
    (h : ubwtLoop H (d :: uniform d d m) (fun i j => (d :: uniform d d m).map (F i j)) (m + 1) = some l) {p : ℕ} (hp : p ≤ m) {x : (Fin n → ℝ) × ℝ} (hx : l[p]? = some x) (i : Fin n) :
    x.2 = ∑ j, duhamel (F i j) ((p + 1) * d) 0 (0 :: d :: uniform d d p) ((l.take (p + 1)).map fun z => z.1 j) := by
  obtain ⟨hlen, hst⟩ := ubwtLoop_spec h
  obtain ⟨hdt, T0, hs, h1, -, -⟩ := ubwtStep_spec (hst p x hx)
  rw [h1 i, step_uniform F hd hp (by simp [hlen]; omega) hs x.1 i]
  refine Finset.sum_congr rfl fun j _ => ?_
  congr 1
  have : l.take (p + 1) = l.take p ++ [x] := by
    rw [List.take_add_one, hx]; rfl
  rw [this, List.map_append, List.map_map]
  rfl

/-! ### Fields in which all sources have the same temperature -/

theorem zip_sum (a : List ℝ) (f : Fin n → ℝ → ℝ) (w : List ℝ) :
    ∑ j, (List.zipWith (· * ·) (a.map (f j)) w).sum = (List.zipWith (· * ·) (a.map fun t => ∑ j, f j t) w).sum := by
  induction a generalizing w with
  | nil => simp
  | cons t a ih =>
    cases w with
    | nil => simp
    | cons v w => simp only [List.map_cons, List.zipWith_cons_cons, List.sum_cons, Finset.sum_add_distrib, ih, Finset.sum_mul]

theorem interpGo_sum (x a : ℝ) (A : Fin n → ℝ) (l : List ℝ) (f : Fin n → ℝ → ℝ) :
    ∑ j, interpGo x (a, A j) (List.zip l (l.map (f j))) = interpGo x (a, ∑ j, A j) (List.zip l (l.map fun t => ∑ j, f j t)) := by
  have hline : ∀ (a t : ℝ) (A B : Fin n → ℝ), ∑ j, line (a, A j) (t, B j) x = line (a, ∑ j, A j) (t, ∑ j, B j) x := fun a t A B => by
    simp only [line, Finset.sum_add_distrib, ← Finset.sum_mul, ← Finset.sum_div, Finset.sum_sub_distrib]
  induction l generalizing a A with
  | nil => simp [interpGo]
  | cons t l ih =>
    cases l with
    | nil => simpa [interpGo] using hline a t A fun j => f j t
    | cons t' l =>
      simp only [List.map_cons, List.zip_cons_cons, interpGo] at ih ⊢
      split_ifs with hc
      · exact hline a t A fun j => f j t
      · exact ih t fun j => f j t

theorem interp_sum (x : ℝ) (l : List ℝ) (f : Fin n → ℝ → ℝ) (v : Fin n → ℝ) (hv : ∀ j, interp (List.zip (0 :: l) (0 :: l.map (f j))) x = some (v j)) :
    ∑ j, v j = interpGo x (0, 0) (List.zip l (l.map fun t => ∑ j, f j t)) := by
  have : ∀ j, v j = interpGo x (0, 0) (List.zip l (l.map (f j))) := fun j => by
    have h := hv j
    rw [List.zip_cons_cons] at h
    unfold interp at h
    dsimp only at h
    split_ifs at h
    exact (Option.some.inj h).symm
  simp only [this]
  rw [interpGo_sum x 0 (fun _ => 0) l f]
  simp

/-- **C80**.  When unit heat extraction at all sources causes the same temperature `c t` at all of them, all heat extraction rates are one, on every grid of times. -/
theorem ubwt_symmetric_rates {H : Fin n → ℝ} (F : Fin n → Fin n → ℝ → ℝ) (c : ℝ → ℝ) (hc : ∀ i t, ∑ j, F i j t = c t) (tl : List ℝ) {m : ℕ} {l : List ((Fin n → ℝ) × ℝ)}
    (h : ubwtLoop H tl (fun i j => tl.map (F i j)) m = some l) : ∀ x ∈ l, ∀ i, x.1 i = 1 := by
  obtain ⟨hlen, hst⟩ := ubwtLoop_spec h
  have key : ∀ (p : ℕ) (x : (Fin n → ℝ) × ℝ), l[p]? = some x → ∀ i, x.1 i = 1 := by
    intro p
    induction p using Nat.strong_induction_on with
    | _ p ih =>
      intro x hx i
      have hpast : ∀ z ∈ l.take p, ∀ j, z.1 j = 1 := fun z hz => by
        obtain ⟨q, hq⟩ := List.mem_iff_getElem?.mp hz
        have hlt : q < p := by
          have := (List.getElem?_eq_some_iff.mp hq).1
          simp at this; omega
        rw [List.getElem?_take_of_lt hlt] at hq
        exact ih q hlt z hq
      obtain ⟨hdt, T0, hs, h1, h2, huniq⟩ := ubwtStep_spec (hst p x hx)
      obtain ⟨a, R, hR, hT⟩ := stepData_spec hs
      obtain ⟨row, hrow⟩ : ∃ row, row = R i := ⟨_, rfl⟩
      have hRj : ∀ j, R j = row := fun j => by
        have e : ∀ j, ((l.take p).map Prod.fst).map (fun Q : Fin n → ℝ => Q j) = (l.take p).map fun _ => (1 : ℝ) := fun j => by
          rw [List.map_map]
          exact List.map_congr_left fun z hz => hpast z hz j
        have h1 := hR j
        have h2 := hR i
        rw [e] at h1 h2
        rw [h1] at h2
        rw [hrow]; exact Option.some.inj h2
      have hT0 : ∀ i', T0 i' = (List.zipWith (· * ·) ((tl.map c).take row.length) (diffs row).reverse).sum := fun i' => by
        have := hT i'
        unfold superpose at this
        split_ifs at this
        rw [← Option.some.inj this]
        simp only [hRj, ← List.map_take]
        rw [zip_sum]
        simp only [hc]
      have hrowsum : ∀ i', ∑ j, hdt i' j = interpGo ((diffs tl).getD p 0) (0, 0) (List.zip tl (tl.map c)) := fun i' => by
        rw [interp_sum _ tl (F i') (hdt i') (a i')]
        simp only [hc]
      have := huniq (fun _ => 1) _ (fun i' => by simp only [mul_one]; rw [hT0 i', hrowsum i']) (by simp)
      rw [← this]
  intro x hx
  obtain ⟨p, hp⟩ := List.mem_iff_getElem?.mp hx
  exact key p x hp

theorem duhamel_ones (H : ℝ → ℝ) (T : ℝ) (s : ℝ) (ss qs : List ℝ) (hq : ∀ q ∈ qs, q = 1) : duhamel H T 0 (s :: ss) (1 :: qs) = H (T - s) := by
  have : ∀ (ss qs : List ℝ), (∀ q ∈ qs, q = 1) → duhamel H T 1 ss qs = 0 := by
    intro ss qs hq
    induction qs generalizing ss with
    | nil => cases ss <;> rfl
    | cons q qs ih =>
      cases ss with
      | nil => rfl
      | cons s ss =>
        have h1 : q = 1 := hq q List.mem_cons_self
        subst h1
        rw [duhamel, ih ss fun x hx => hq x (List.mem_cons_of_mem _ hx)]
        ring
  rw [duhamel, this ss qs hq]; ring

/-- **C80** (g-function).  In such a field the g-function at the times of a uniform grid is `c t`, the value for uniform heat extraction rates. -/
theorem ubwt_symmetric {H : Fin n → ℝ} (hn : 0 < n) (F : Fin n → Fin n → ℝ → ℝ) (c : ℝ → ℝ) (hc : ∀ i t, ∑ j, F i j t = c t) {d : ℝ} (hd : 0 < d) (m : ℕ) {l : List ((Fin n → ℝ) × ℝ)}
    (h : ubwtLoop H (d :: uniform d d m) (fun i j => (d :: uniform d d m).map (F i j)) (m + 1) = some l) {p : ℕ} (hp : p ≤ m) {x : (Fin n → ℝ) × ℝ} (hx : l[p]? = some x) :
    x.2 = c ((p + 1) * d) := by
  have hones := ubwt_symmetric_rates F c hc _ h
  obtain ⟨hlen, -⟩ := ubwtLoop_spec h
  rw [ubwt_superposition F hd m h hp hx ⟨0, hn⟩]
  have e : ∀ j, (l.take (p + 1)).map (fun z => z.1 j) = 1 :: List.replicate p 1 := fun j => by
    rw [← List.replicate_succ, List.eq_replicate_iff]
    refine ⟨by simp [hlen]; omega, fun b hb => ?_⟩
    obtain ⟨z, hz, rfl⟩ := List.mem_map.mp hb
    exact hones z (List.mem_of_mem_take hz) j
  simp only [e]
  have : ∀ j, duhamel (F ⟨0, hn⟩ j) ((p + 1) * d) 0 (0 :: d :: uniform d d p) (1 :: List.replicate p 1) = F ⟨0, hn⟩ j ((p + 1) * d) := fun j => by
    rw [duhamel_ones _ _ _ _ _ (fun q hq => List.eq_of_mem_replicate hq), sub_zero]
  simp only [this]
  exact hc _ _

/-! ### The solver does not raise for positive definite responses -/

/-- Positive definite with the lengths as weights. -/
def Definite (H : Fin n → ℝ) (h : Matrix (Fin n) (Fin n) ℝ) : Prop := ∀ Q : Fin n → ℝ, Q ≠ 0 → 0 < ∑ i, H i * Q i * ∑ j, h i j * Q j

theorem ubwtA_unit {H : Fin n → ℝ} {h : Matrix (Fin n) (Fin n) ℝ} (hn : 0 < n) (hh : Definite H h) : IsUnit (ubwtA H h).det := by
  rw [← Matrix.isUnit_iff_isUnit_det, ← Matrix.mulVec_injective_iff_isUnit]
  have hker : ∀ X, ubwtA H h *ᵥ X = 0 → X = 0 := fun X hX => by
    have := (ubwtA_mul H h X (fun _ => 0) 0).mp (by rw [hX]; funext k; cases k <;> simp)
    obtain ⟨h1, h2⟩ := this
    have hQ : (fun i => X (.inl i)) = 0 := by
      by_contra hne
      have := hh _ hne
      have e : ∀ i, H i * X (.inl i) * ∑ j, h i j * X (.inl j) = H i * X (.inl i) * X (.inr ()) := fun i => by rw [h1 i, zero_add]
      simp only [e, ← Finset.sum_mul, h2] at this
      linarith
    have hQ' : ∀ i, X (.inl i) = 0 := fun i => congrFun hQ i
    funext k
    cases k with
    | inl i => exact hQ' i
    | inr u => simpa [hQ'] using h1 ⟨0, hn⟩
  intro X Y hXY
  have := hker (X - Y) (by rw [Matrix.mulVec_sub]; simpa using sub_eq_zero.mpr hXY)
  exact sub_eq_zero.mp this

theorem stepData_some (F : Fin n → Fin n → ℝ → ℝ) {tl : List ℝ} (hi : Increasing 0 tl) {past : List (Fin n → ℝ)} {p : ℕ} (hp : p < tl.length) (hl : past.length = p) :
    ∃ h T0, stepData tl (fun i j => tl.map (F i j)) past p = some (h, T0) := by
  have hlast : ∀ (F : ℝ → ℝ) (a : ℝ) (l : List ℝ) (b : ℝ), ((List.zip l (l.map F)).getLastD (a, b)).1 = l.getLastD a := by
    intro F a l b
    induction l generalizing a b with
    | nil => rfl
    | cons t l ih => rw [List.map_cons, List.zip_cons_cons, List.getLastD_cons, List.getLastD_cons, ih]
  have hdt : 0 ≤ (diffs tl).getD p 0 ∧ (diffs tl).getD p 0 ≤ tl.getLastD 0 := by
    rw [diffs_eq]
    have hm : ∀ v ∈ diffsFrom 0 tl, 0 ≤ v ∧ v ≤ (diffsFrom 0 tl).sum := fun v hv =>
      ⟨(diffsFrom_pos hi v hv).le, List.single_le_sum (fun w hw => (diffsFrom_pos hi w hw).le) v hv⟩
    rw [diffsFrom_sum, sub_zero] at hm
    rw [List.getD_eq_getElem _ _ (by rw [diffsFrom_length]; exact hp)]
    exact hm _ (List.getElem_mem _)
  have h1 : ∀ i j, ∃ v, interp (List.zip (0 :: tl) (0 :: tl.map (F i j))) ((diffs tl).getD p 0) = some v := fun i j => by
    rw [List.zip_cons_cons]
    unfold interp
    dsimp only
    rw [if_pos ⟨hdt.1, by rw [hlast]; exact hdt.2⟩]
    exact ⟨_, rfl⟩
  choose hm hh using h1
  have htake : Increasing 0 (tl.take (p + 1)) := by
    have : ∀ (a : ℝ) (l : List ℝ) (k : ℕ), Increasing a l → Increasing a (l.take k) := by
      intro a l k h
      induction l generalizing a k with
      | nil => simpa using h
      | cons t l ih => cases k with
        | zero => trivial
        | succ k => exact ⟨h.1, ih t k h.2⟩
    exact this 0 tl (p + 1) hi
  cases htl : tl with
  | nil => rw [htl] at hp; simp at hp
  | cons t0 ts =>
    have hlenT : (tl.take (p + 1)).length = p + 1 := by simp; omega
    rw [htl, List.take_succ_cons] at htake hlenT
    have h2 : ∀ j, ∃ R, reconstruct (tl.take (p + 1)) (past.map (fun Q => Q j) ++ [0]) = some R ∧ R.length = p + 1 := fun j => by
      rw [htl, List.take_succ_cons]
      obtain ⟨R, a, b, -⟩ := reconstruct_heat t0 (ts.take p) (past.map (fun Q => Q j) ++ [0]) htake (by rw [hlenT]; simp [hl])
      exact ⟨R, a, by rw [b]; simp [hl]⟩
    choose R hR hRl using h2
    have h3 : ∀ i, ∃ T, superpose (fun i j => tl.map (F i j)) R i = some T := fun i => by
      unfold superpose
      rw [if_pos fun j => by rw [hRl j, List.length_map]; omega]
      exact ⟨_, rfl⟩
    choose T0 hT using h3
    rw [← htl]
    refine ⟨hm, T0, ?_⟩
    unfold stepData
    have e1 : respAt tl (fun i j => tl.map (F i j)) ((diffs tl).getD p 0) = some hm :=
      allSome_iff.mpr fun i => allSome_iff.mpr fun j => hh i j
    rw [e1, allSome_iff.mpr hR]
    dsimp only
    rw [allSome_iff.mpr hT]

/-- **C30** (no exception).  For increasing times and response factors that are positive definite with the lengths as weights at all the time steps, the solver returns. -/
theorem ubwt_returns {H : Fin n → ℝ} (hn : 0 < n) (F : Fin n → Fin n → ℝ → ℝ) {resp : List ℝ → Fin n → Fin n → List ℝ} (hF : Sampled F resp) {time : List ℝ} {thr : ℝ}
    (hi : Increasing 0 (timeLong time thr))
    (hdef : ∀ h, ∀ p < (timeLong time thr).length, respAt (timeLong time thr) (resp (timeLong time thr)) ((diffs (timeLong time thr)).getD p 0) = some h → Definite H h) :
    ∃ out, ubwt H resp time thr = some out := by
  obtain ⟨tl, htl⟩ : ∃ tl, tl = timeLong time thr := ⟨_, rfl⟩
  rw [← htl] at hi hdef
  have hy : resp tl = fun i j => tl.map (F i j) := by funext i j; exact hF tl i j
  have hloop : ∀ m, m ≤ tl.length → ∃ l, ubwtLoop H tl (resp tl) m = some l := by
    intro m
    induction m with
    | zero => intro _; exact ⟨[], rfl⟩
    | succ m ih =>
      intro hm
      obtain ⟨l, hl⟩ := ih (by omega)
      obtain ⟨hlen, -⟩ := ubwtLoop_spec hl
      obtain ⟨h, T0, hs⟩ := stepData_some F hi (past := l.map Prod.fst) (p := m) (by omega) (by simp [hlen])
      rw [← hy] at hs
      have hr : respAt tl (resp tl) ((diffs tl).getD m 0) = some h := allSome_iff.mpr fun i => allSome_iff.mpr fun j => (stepData_spec hs).1 i j
      rw [ubwtLoop, hl]
      dsimp only
      unfold ubwtStep
      rw [hs]
      dsimp only
      unfold linsolve
      rw [if_pos (ubwtA_unit hn (hdef h m (by omega) hr))]
      exact ⟨_, rfl⟩
  obtain ⟨l, hl⟩ := hloop tl.length le_rfl
  unfold ubwt
  dsimp only
  rw [← htl, hl]
  exact ⟨_, rfl⟩

/-- A single source whose temperature is the time has a definite response. -/
theorem single_definite (h : Matrix (Fin 1) (Fin 1) ℝ) (p : ℕ) (hp : p < (timeLong [1, 2, 3] (1 / 2 : ℝ)).length)
    (hh : respAt (timeLong [1, 2, 3] (1 / 2 : ℝ)) (fun _ _ => (timeLong [1, 2, 3] (1 / 2 : ℝ)).map fun t => t) ((diffs (timeLong [1, 2, 3] (1 / 2 : ℝ))).getD p 0) = some h) :
    Definite (fun _ : Fin 1 => (100 : ℝ)) h := by
  intro Q hQ
  have e : timeLong [1, 2, 3] (1 / 2 : ℝ) = [1, 2, 3] := by norm_num [timeLong, pLong]
  have h00 := allSome_iff.mp (allSome_iff.mp hh 0) 0
  rw [e] at hp h00
  have hd : (diffs [1, 2, 3]).getD p (0 : ℝ) = 1 := by
    simp only [List.length_cons, List.length_nil] at hp
    interval_cases p <;> norm_num [diffs, diffsFrom]
  rw [hd, interp_first (by norm_num [Increasing]) fun t => t] at h00
  have h0 : h 0 0 = 1 := (Option.some.inj h00).symm
  have hQ0 : Q 0 ≠ 0 := fun hz => hQ (funext fun i => by rw [Subsingleton.elim i 0, hz]; rfl)
  simp only [Finset.univ_unique, Fin.default_eq_zero, Finset.sum_singleton, h0]
  have := mul_self_pos.mpr hQ0
  nlinarith

/-- Non-vacuity of C30, C80 and C81: a single source whose temperature is the time. -/
example : ∃ out, ubwt (fun _ : Fin 1 => (100 : ℝ)) (fun tl _ _ => tl.map fun t => t) [1, 2, 3] (1 / 2) = some out := by
  refine ubwt_returns (by norm_num) (fun _ _ t => t) (fun _ _ _ => rfl) ?_ single_definite
  norm_num [timeLong, pLong, Increasing]

/-! ### Mixed inlet fluid temperature -/

/-- **C30** (MIFT).  As `ubwt_mean_one` for the mixed inlet fluid temperature. -/
theorem mift_mean_one {H : Fin n → ℝ} {f : Flow n} {resp : List ℝ → Fin n → Fin n → List ℝ} {time : List ℝ} {thr : ℝ} {g : List ℝ} {Qs : List (Fin n → ℝ)} {Ts : Fin n → List ℝ}
    (h : mift H f resp time thr = some (g, Qs, Ts)) :
    g.length = time.length ∧ Qs.length = time.length ∧ (∀ i, (Ts i).length = time.length) ∧ (∀ Q ∈ Qs, MeanOne H Q) ∧
    (time.Pairwise (· ≤ ·) → (∃ (k : ℕ) (t : ℝ), time[k]? = some t ∧ t ≤ thr) →
      ∃ x, miftStep H f (timeLong time thr) (resp (timeLong time thr)) [] 0 = some x ∧
        ∀ (k : ℕ) (t : ℝ), time[k]? = some t → t ≤ thr → g[k]? = some (x.g * t / thr) ∧ Qs[k]? = some (fun i => 1 + (x.Q i - 1) * t / thr) ∧
          ∀ i, (Ts i)[k]? = some (x.T i * t / thr)) := by
  unfold mift at h
  dsimp only at h
  split at h
  · simp at h
  · rename_i l hl
    have e := Option.some.inj h
    simp only [Prod.mk.injEq] at e
    obtain ⟨rfl, rfl, rfl⟩ := e
    obtain ⟨hlen, hst⟩ := miftLoop_spec hl
    obtain ⟨g1, g2, -⟩ := linearized time thr (l.map MiftState.g) (by simp [hlen]) 0 (fun x0 t => x0 * t / thr) _ (rfl : linearize time thr (l.map MiftState.g) = _)
    obtain ⟨q1, q2, q3⟩ := linearized time thr (l.map MiftState.Q) (by simp [hlen]) 0 (fun (x0 : Fin n → ℝ) t i => 1 + (x0 i - 1) * t / thr) _
      (rfl : linearizeQ time thr (l.map MiftState.Q) = _)
    have hTs := fun i => linearized time thr (l.map fun x => x.T i) (by simp [hlen]) 0 (fun x0 t => x0 * t / thr) _ (rfl : linearize time thr (l.map fun x => x.T i) = _)
    have hmean : ∀ x ∈ l, MeanOne H x.Q := fun x hx => by
      obtain ⟨p, hp⟩ := List.mem_iff_getElem?.mp hx
      obtain ⟨_, _, _, _, _, hm, _⟩ := miftStep_spec (hst p x hp)
      exact hm
    refine ⟨g1, q1, fun i => (hTs i).1, fun Q hQ => ?_, fun hs hex => ?_⟩
    · obtain ⟨k, hk⟩ := List.mem_iff_getElem?.mp hQ
      have hlt := (List.getElem?_eq_some_iff.mp hk).1
      rw [q1] at hlt
      by_cases hkp : k < pLong time thr
      · obtain ⟨x0, hx0, hr⟩ := q2 k _ (List.getElem?_eq_getElem hlt) hkp
        rw [hk] at hr
        rw [Option.some.inj hr]
        obtain ⟨x, hx, rfl⟩ := List.mem_map.mp (List.mem_of_getElem? hx0)
        exact meanOne_linear (hmean x hx) _ _
      · rw [q3 k (by omega)] at hk
        obtain ⟨x, hx, rfl⟩ := List.mem_map.mp (List.mem_of_getElem? hk)
        exact hmean x hx
    · obtain ⟨k0, t0, hk0, ht0⟩ := hex
      have hp0 := (pLong_iff hs thr k0 t0 hk0).mpr ht0
      obtain ⟨x0, hx0, -⟩ := g2 k0 t0 hk0 hp0
      obtain ⟨x, hx⟩ : ∃ x, l[0]? = some x := by
        rw [List.getElem?_map] at hx0
        cases hc : l[0]? with
        | none => rw [hc] at hx0; simp at hx0
        | some x => exact ⟨x, rfl⟩
      refine ⟨x, by simpa using hst 0 x hx, fun k t hk ht => ?_⟩
      have hkp := (pLong_iff hs thr k t hk).mpr ht
      obtain ⟨a, ha, hga⟩ := g2 k t hk hkp
      obtain ⟨b, hb, hqb⟩ := q2 k t hk hkp
      rw [List.getElem?_map, hx] at ha hb
      rw [hga, hqb, ← Option.some.inj ha, ← Option.some.inj hb]
      refine ⟨rfl, rfl, fun i => ?_⟩
      obtain ⟨c, hc, htc⟩ := (hTs i).2.1 k t hk hkp
      rw [List.getElem?_map, hx] at hc
      rw [htc, ← Option.some.inj hc]

/-- **C82** (heat balance).  At every step the heat exchanged by the fluid along each source equals the heat exchanged with the ground, and the energy balance of the
network closes: for `w i` boreholes represented by the source `i`, the total heat extraction rate of the fluid is `-2 π k_s ΣH`, so that the outlet fluid temperature of the
network is the one used for the g-function. -/
theorem mift_balance {H : Fin n → ℝ} {f : Flow n} {tl : List ℝ} {y : Fin n → Fin n → List ℝ} {past : List (Fin n → ℝ)} {p : ℕ} {x : MiftState n}
    (h : miftStep H f tl y past p = some x) (hks : f.ks ≠ 0) (hHb : ∀ i, f.Hb i ≠ 0) (w : Fin n → ℝ) (hw : ∀ i, H i = w i * f.Hb i) :
    (∀ i, f.aIn i * x.Tin + ∑ j, f.aB i j * x.T j = -(2 * Real.pi * f.ks * f.Hb i * x.Q i)) ∧
    ∑ i, w i * (f.aIn i * x.Tin + ∑ j, f.aB i j * x.T j) = -(2 * Real.pi * f.ks * ∑ i, H i) ∧
    ∀ Tout, f.mcp ≠ 0 → ∑ i, w i * (f.aIn i * x.Tin + ∑ j, f.aB i j * x.T j) = f.mcp * (Tout - x.Tin) →
      x.g = (x.Tin + Tout) / 2 - 2 * Real.pi * f.ks * f.R := by
  obtain ⟨hdt, T0, -, -, h2, h3, h4⟩ := miftStep_spec h
  have hpi := Real.pi_ne_zero
  have e1 : ∀ i, f.aIn i * x.Tin + ∑ j, f.aB i j * x.T j = -(2 * Real.pi * f.ks * f.Hb i * x.Q i) := fun i => by
    have := h2 i
    have hne : 2 * Real.pi * f.ks * f.Hb i ≠ 0 := by have := hHb i; positivity
    have e : ∑ j, f.aB i j / (2 * Real.pi * f.ks * f.Hb i) * x.T j = (∑ j, f.aB i j * x.T j) / (2 * Real.pi * f.ks * f.Hb i) := by
      rw [Finset.sum_div]
      exact Finset.sum_congr rfl fun j _ => by ring
    rw [e] at this
    have hH := hHb i
    field_simp at this
    linarith
  have e2 : ∑ i, w i * (f.aIn i * x.Tin + ∑ j, f.aB i j * x.T j) = -(2 * Real.pi * f.ks * ∑ i, H i) := by
    rw [← h3, Finset.mul_sum, ← Finset.sum_neg_distrib]
    refine Finset.sum_congr rfl fun i _ => ?_
    rw [e1 i, hw i]; ring
  refine ⟨e1, e2, fun Tout hm hT => ?_⟩
  rw [e2] at hT
  rw [h4]
  unfold effective
  dsimp only
  have : Tout = x.Tin - 2 * Real.pi * f.ks * (∑ i, H i) / f.mcp := by field_simp; linarith
  rw [this]; ring

/-- **C82** (effective temperature).  When the resistance is the effective resistance of the network, the value of the g-function is the uniform wall temperature for which
the network at the same inlet fluid temperature extracts the same heat. -/
theorem mift_effective {nb : ℕ} {ns : Fin nb → ℕ} (f : Flow n) (out q : Net.Coef Unit ns) {Htot : ℝ} (hH : Htot ≠ 0) (hQ : q.aIn () ≠ 0)
    (hout : ∀ T, out.eval T (fun _ => T) () = T) (hq : ∀ T, q.eval T (fun _ => T) () = 0) (hm : f.mcp ≠ 0)
    (hbal : ∀ Tin T, q.eval Tin T () = f.mcp * (out.eval Tin T () - Tin)) (hR : f.R = Net.netResistance Htot out q) (Tin Tw : ℝ)
    (hheat : q.eval Tin (fun _ => Tw) () = -(2 * Real.pi * f.ks * Htot)) : effective Htot f Tin = Tw := by
  have h1 := Net.network_resistance_spec Htot out q hH hQ hout hq Tin Tw
  have h2 := hbal Tin fun _ => Tw
  rw [hheat] at h1 h2
  rw [← hR] at h1
  unfold effective
  dsimp only
  have e : out.eval Tin (fun _ => Tw) () = Tin - 2 * Real.pi * f.ks * Htot / f.mcp := by field_simp; linarith
  rw [e] at h1
  have e2 : f.R * -(2 * Real.pi * f.ks * Htot) / Htot = -(2 * Real.pi * f.ks * f.R) := by field_simp
  rw [e2] at h1
  linarith

/-- **C82** (other flow rates).  The value for another flow rate uses the inlet fluid temperature for which the network extracts the same heat from the given walls; for
the same flow rate it is the value of the step itself. -/
theorem mift_cross {H : Fin n → ℝ} {f : Flow n} {tl : List ℝ} {y : Fin n → Fin n → List ℝ} {past : List (Fin n → ℝ)} {p : ℕ} {x : MiftState n}
    (h : miftStep H f tl y past p = some x) (hks : f.ks ≠ 0) (hHb : ∀ i, f.Hb i ≠ 0) (w : Fin n → ℝ) (hw : ∀ i, H i = w i * f.Hb i) (f' : Flow n) :
    (∀ aIn aB, aIn ≠ 0 → ∃ Tin, aIn * Tin + ∑ j, aB j * x.T j = -(2 * Real.pi * f'.ks * ∑ i, H i) ∧ crossG (∑ i, H i) f' aIn aB x.T = effective (∑ i, H i) f' Tin) ∧
    (∑ i, w i * f.aIn i ≠ 0 → crossG (∑ i, H i) f (∑ i, w i * f.aIn i) (fun j => ∑ i, w i * f.aB i j) x.T = x.g) := by
  refine ⟨fun aIn aB ha => ⟨_, ?_, rfl⟩, fun ha => ?_⟩
  · field_simp; ring
  · obtain ⟨-, e2, -⟩ := mift_balance h hks hHb w hw
    obtain ⟨-, -, -, -, -, -, h4⟩ := miftStep_spec h
    rw [h4]
    unfold crossG
    congr 1
    have e : ∑ i, w i * (f.aIn i * x.Tin + ∑ j, f.aB i j * x.T j) = (∑ i, w i * f.aIn i) * x.Tin + ∑ j, (∑ i, w i * f.aB i j) * x.T j := by
      simp only [mul_add, Finset.sum_add_distrib, Finset.sum_mul, Finset.mul_sum]
      congr 1
      · exact Finset.sum_congr rfl fun i _ => by ring
      · rw [Finset.sum_comm]
        exact Finset.sum_congr rfl fun i _ => Finset.sum_congr rfl fun j _ => by ring
    rw [e] at e2
    field_simp
    linarith

/-- **C81** (MIFT).  On a uniform grid of times the wall temperature of every source is the temporal and spatial superposition of the heat extraction rates at all steps. -/
theorem mift_superposition {H : Fin n → ℝ} {f : Flow n} (F : Fin n → Fin n → ℝ → ℝ) {d : ℝ} (hd : 0 < d) (m : ℕ) {l : List (MiftState n)}
    (h : miftLoop H f (d :: uniform d d m) (fun i j => (d :: uniform d d m).map (F i j)) (m + 1) = some l) {p : ℕ} (hp : p ≤ m) {x : MiftState n} (hx : l[p]? = some x) (i : Fin n) :
    x.T i = ∑ j, duhamel (F i j) ((p + 1) * d) 0 (0 :: d :: uniform d d p) ((l.take (p + 1)).map fun z => z.Q j) := by
  obtain ⟨hlen, hst⟩ := miftLoop_spec h
  obtain ⟨hdt, T0, hs, h1, -, -⟩ := miftStep_spec (hst p x hx)
  rw [h1 i, step_uniform F hd hp (by simp [hlen]; omega) hs x.Q i]
  refine Finset.sum_congr rfl fun j _ => ?_
  congr 1
  have : l.take (p + 1) = l.take p ++ [x] := by
    rw [List.take_add_one, hx]; rfl
  rw [this, List.map_append, List.map_map]
  rfl

/-- The fluid passively exchanges heat: no heat at thermal equilibrium, and the heat extracted from walls at the temperatures `T_in + θ` is never negative when weighted by `θ`. -/
structure Passive (f : Flow n) (w : Fin n → ℝ) : Prop where
  equilibrium : ∀ i, f.aIn i + ∑ j, f.aB i j = 0
  dissipative : ∀ θ : Fin n → ℝ, 0 ≤ ∑ i, w i * θ i * ∑ j, f.aB i j * θ j
  active : ∃ i, f.aIn i ≠ 0

theorem miftA_unit {H : Fin n → ℝ} {f : Flow n} {h : Matrix (Fin n) (Fin n) ℝ} (hh : Definite H h) {w : Fin n → ℝ} (hp : Passive f w) (hks : 0 < f.ks) (hHb : ∀ i, 0 < f.Hb i)
    (hw : ∀ i, H i = w i * f.Hb i) : IsUnit (miftA H f h).det := by
  rw [← Matrix.isUnit_iff_isUnit_det, ← Matrix.mulVec_injective_iff_isUnit]
  have hpi := Real.pi_pos
  have hker : ∀ X, miftA H f h *ᵥ X = 0 → X = 0 := fun X hX => by
    obtain ⟨h1, h2, h3⟩ := miftA_mul H f h X (fun _ => 0) 0 (by rw [hX]; funext k; rcases k with k | k | k <;> simp)
    obtain ⟨Q, hQ⟩ : ∃ Q : Fin n → ℝ, Q = fun i => X (.inl i) := ⟨_, rfl⟩
    obtain ⟨T, hT⟩ : ∃ T : Fin n → ℝ, T = fun i => X (.inr (.inl i)) := ⟨_, rfl⟩
    obtain ⟨Tin, hTin⟩ : ∃ Tin, Tin = X (.inr (.inr ())) := ⟨_, rfl⟩
    have g1 : ∀ i, T i = ∑ j, h i j * Q j := fun i => by rw [hT, hQ]; simpa using h1 i
    have g2 : ∀ i, ∑ j, f.aB i j * (T j - Tin) = -(2 * Real.pi * f.ks * f.Hb i * Q i) := fun i => by
      have := h2 i
      have hH := hHb i
      have e : ∑ j, f.aB i j / (2 * Real.pi * f.ks * f.Hb i) * X (.inr (.inl j)) = (∑ j, f.aB i j * T j) / (2 * Real.pi * f.ks * f.Hb i) := by
        rw [Finset.sum_div, hT]
        exact Finset.sum_congr rfl fun j _ => by ring
      rw [e, ← hTin, show X (.inl i) = Q i by rw [hQ]] at this
      field_simp at this
      simp only [mul_sub, Finset.sum_sub_distrib, ← Finset.sum_mul]
      have he := hp.equilibrium i
      rw [show ∑ j, f.aB i j = -f.aIn i by linarith]
      linarith
    have g3 : ∑ i, H i * Q i = 0 := by rw [hQ]; exact h3
    have hQ0 : Q = 0 := by
      by_contra hne
      have d1 := hh Q hne
      have d2 := hp.dissipative fun i => T i - Tin
      have e : ∀ i, w i * (T i - Tin) * ∑ j, f.aB i j * (T j - Tin) = -(2 * Real.pi * f.ks) * (H i * Q i * ∑ j, h i j * Q j) + 2 * Real.pi * f.ks * Tin * (H i * Q i) := fun i => by
        rw [g2 i, ← g1 i, hw i]; ring
      simp only [e, Finset.sum_add_distrib, ← Finset.mul_sum, g3, mul_zero, add_zero] at d2
      have : 0 < 2 * Real.pi * f.ks * ∑ i, H i * Q i * ∑ j, h i j * Q j := by positivity
      linarith
    have hT0 : ∀ i, T i = 0 := fun i => by rw [g1 i, hQ0]; simp
    have hTin0 : Tin = 0 := by
      obtain ⟨i, hi⟩ := hp.active
      have := g2 i
      simp only [hT0, hQ0, zero_sub, Pi.zero_apply, mul_zero, neg_zero, mul_neg, Finset.sum_neg_distrib, ← Finset.sum_mul] at this
      have he := hp.equilibrium i
      rw [show ∑ j, f.aB i j = -f.aIn i by linarith] at this
      have : f.aIn i * Tin = 0 := by linarith
      exact (mul_eq_zero.mp this).resolve_left hi
    funext k
    rcases k with k | k | k
    · exact (congrFun hQ k).symm.trans (congrFun hQ0 k)
    · exact (congrFun hT k).symm.trans (hT0 k)
    · exact hTin.symm.trans hTin0
  intro X Y hXY
  have := hker (X - Y) (by rw [Matrix.mulVec_sub]; simpa using sub_eq_zero.mpr hXY)
  exact sub_eq_zero.mp this

/-- **C30** (no exception, MIFT).  Under the same conditions and for a network that passively exchanges heat the solver returns. -/
theorem mift_returns {H : Fin n → ℝ} {f : Flow n} (F : Fin n → Fin n → ℝ → ℝ) {resp : List ℝ → Fin n → Fin n → List ℝ} (hF : Sampled F resp) {time : List ℝ} {thr : ℝ}
    (hi : Increasing 0 (timeLong time thr))
    (hdef : ∀ h, ∀ p < (timeLong time thr).length, respAt (timeLong time thr) (resp (timeLong time thr)) ((diffs (timeLong time thr)).getD p 0) = some h → Definite H h)
    {w : Fin n → ℝ} (hp : Passive f w) (hks : 0 < f.ks) (hHb : ∀ i, 0 < f.Hb i) (hw : ∀ i, H i = w i * f.Hb i) : ∃ out, mift H f resp time thr = some out := by
  obtain ⟨tl, htl⟩ : ∃ tl, tl = timeLong time thr := ⟨_, rfl⟩
  rw [← htl] at hi hdef
  have hy : resp tl = fun i j => tl.map (F i j) := by funext i j; exact hF tl i j
  have hloop : ∀ m, m ≤ tl.length → ∃ l, miftLoop H f tl (resp tl) m = some l := by
    intro m
    induction m with
    | zero => intro _; exact ⟨[], rfl⟩
    | succ m ih =>
      intro hm
      obtain ⟨l, hl⟩ := ih (by omega)
      obtain ⟨hlen, -⟩ := miftLoop_spec hl
      obtain ⟨h, T0, hs⟩ := stepData_some F hi (past := l.map MiftState.Q) (p := m) (by omega) (by simp [hlen])
      rw [← hy] at hs
      have hr : respAt tl (resp tl) ((diffs tl).getD m 0) = some h := allSome_iff.mpr fun i => allSome_iff.mpr fun j => (stepData_spec hs).1 i j
      rw [miftLoop, hl]
      dsimp only
      unfold miftStep
      rw [hs]
      dsimp only
      unfold linsolve
      rw [if_pos (miftA_unit (hdef h m (by omega) hr) hp hks hHb hw)]
      exact ⟨_, rfl⟩
  obtain ⟨l, hl⟩ := hloop tl.length le_rfl
  unfold mift
  dsimp only
  rw [← htl, hl]
  exact ⟨_, rfl⟩

/-- Non-vacuity of C82: a single source and a network with the heat extraction rate `3 (T - T_in)`. -/
example : ∃ out, mift (fun _ : Fin 1 => (100 : ℝ)) ⟨fun _ => -3, fun _ _ => 3, 4, 1 / 10, 2, fun _ => 100⟩ (fun tl _ _ => tl.map fun t => t) [1, 2, 3] (1 / 2) = some out := by
  refine mift_returns (fun _ _ t => t) (fun _ _ _ => rfl) ?_ ?_ (w := fun _ => 1) ⟨fun i => by simp, fun θ => ?_, ⟨0, by norm_num⟩⟩ (by norm_num) (fun _ => by norm_num) (fun _ => by norm_num)
  · norm_num [timeLong, pLong, Increasing]
  · intro h p hp hh Q hQ
    exact single_definite h p hp hh Q hQ
  · simp only [Finset.univ_unique, Fin.default_eq_zero, Finset.sum_singleton]
    nlinarith [mul_self_nonneg (θ 0)]

/-! ### Linearization for several flow rates -/

/-- What the documentation promises: all the g-functions are proportional to time below the threshold. -/
def Linearized {m k : ℕ} (G : Fin m → Fin m → ℝ) (time : Fin k → ℝ) (thr : ℝ) (out : Fin m → Fin m → Fin k → ℝ) : Prop := ∀ i j p, out i j p = G i j * time p / thr

/-- **C79**, one flow rate. -/
theorem linearizeMany_partial {k : ℕ} (G : Fin 1 → Fin 1 → ℝ) (time : Fin k → ℝ) (thr : ℝ) : ∃ out, linearizeMany 1 k G time thr = some out ∧ Linearized G time thr out := by
  unfold linearizeMany
  split_ifs with h
  · subst h
    exact ⟨_, rfl, fun i j p => by rw [Subsingleton.elim i 0, Subsingleton.elim j 0, Subsingleton.elim p 0]; rfl⟩
  · exact ⟨_, rfl, fun i j p => by rw [Subsingleton.elim i 0, Subsingleton.elim j 0]; rfl⟩
  · omega

/-- **C79** fails: with two or more flow rates and another number of times below the threshold, the evaluation raises. -/
theorem linearizeMany_raises {m k : ℕ} (hm : 2 ≤ m) (hk : m ≠ k) (G : Fin m → Fin m → ℝ) (time : Fin k → ℝ) (thr : ℝ) : linearizeMany m k G time thr = none := by
  unfold linearizeMany
  rw [dif_neg hk, dif_neg (by omega)]

/-- **C79** fails: with as many flow rates as times below the threshold the values are not the linearized ones, unless all the columns agree. -/
theorem linearizeMany_fails {m : ℕ} (G : Fin m → Fin m → ℝ) (time : Fin m → ℝ) (thr : ℝ) (ht : ∀ p, 0 < time p) (hthr : 0 < thr) :
    ∃ out, linearizeMany m m G time thr = some out ∧ (Linearized G time thr out ↔ ∀ i j i' j', G i j = G i' j') := by
  unfold linearizeMany
  rw [dif_pos rfl]
  refine ⟨_, rfl, fun h => ?_, fun h i j p => by rw [h i j j (Fin.cast rfl p)]⟩
  have key : ∀ i j p, G j p = G i j := fun i j p => by
    have := h i j p
    have h1 := ht p
    field_simp at this
    exact this
  intro i j i' j'
  exact (key i j i').symm.trans (key j i' j').symm

end Verif.Sol
