import Verif.Gf.ProfileLemmas
import Verif.Bore.SegmentsProps

/-!
# Properties of the curves that `gFunction` draws
-/

noncomputable section

namespace Verif.Gf

open Bore Sol

/-! ### Averages over the boreholes -/

/-- Specification: at the time of index `k`, the average of the curves over the boreholes, weighted by their lengths, is `v`. -/
def AverageAt (Ls : List ℝ) (curves : List (List ℝ)) (k : ℕ) (v : ℝ) : Prop :=
  (List.zipWith (· * ·) Ls (curves.map fun c => c.getD k 0)).sum = Ls.sum * v

/-- Specification: the segments of the boreholes of lengths `Ls` are the sources, and cover the boreholes. -/
structure Divided {n : ℕ} (Ls : List ℝ) (rs : List (List ℝ)) (H : Fin n → ℝ) : Prop where
  boreholes : Ls.length = rs.length
  cover : ∀ r ∈ rs, r.sum = 1
  sources : List.ofFn H = sourceLengths Ls rs

theorem Divided.total {n : ℕ} {Ls : List ℝ} {rs : List (List ℝ)} {H : Fin n → ℝ} (h : Divided Ls rs H) : ∑ i, H i = Ls.sum := by
  rw [← List.sum_ofFn, h.sources, sourceLengths_sum _ _ h.boreholes h.cover]

theorem segmentList_lengths {bs : List Borehole} {ns : List ℕ} {rs : List (List ℝ)} (h : Consistent bs ns rs) :
    (segmentList bs ns rs).map (·.H) = sourceLengths (bs.map (·.H)) rs := by
  have h1 : rs.length = bs.length := by rw [← h.segs, ← h.ratios, List.length_map]
  have h2 := h.ratios
  subst h2
  clear h
  induction bs generalizing rs with
  | nil => simp [segmentList, sourceLengths]
  | cons b bs ih =>
    cases rs with
    | nil => simp at h1
    | cons r rs =>
      have := ih (rs := rs) (by simpa using h1)
      simp only [segmentList, sourceLengths] at this ⊢
      simp only [List.map_cons, List.zip_cons_cons, List.flatMap_cons, List.map_append, this]
      rw [segments_eq, segsFrom_map_H]

/-- The boreholes of a solver, with the lengths of the segments as the solver takes them. -/
theorem divided_of_segments {bs : List Borehole} {ns : List ℕ} {rs : List (List ℝ)} (h : Consistent bs ns rs) (hr : ∀ r ∈ rs, r.sum = 1) {n : ℕ} {H : Fin n → ℝ}
    (hH : List.ofFn H = (segmentList bs ns rs).map (·.H)) : Divided (bs.map (·.H)) rs H :=
  ⟨by rw [List.length_map, ← h.segs, ← h.ratios, List.length_map], hr, by rw [hH, segmentList_lengths h]⟩

theorem mean_curves {n : ℕ} {Ls : List ℝ} {rs : List (List ℝ)} {H : Fin n → ℝ} (hd : Divided Ls rs H) {Qs : List (Fin n → ℝ)} (hQ : ∀ Q ∈ Qs, MeanOne H Q) :
    ∃ c : List (List ℝ), c.length = rs.length ∧ (∀ x ∈ c, x.length = Qs.length) ∧
      (∀ i < rs.length, averages ⟨rs.map List.length, rs⟩ (Qs.map List.ofFn) i = c[i]?) ∧ ∀ k < Qs.length, AverageAt Ls c k 1 := by
  obtain ⟨c, h1, h2, h3, h4⟩ := curves_total Ls rs hd.boreholes H hd.sources Qs
  refine ⟨c, h1, h2, h3, fun k hk => ?_⟩
  have := hQ _ (List.getElem_mem hk)
  unfold MeanOne at this
  rw [AverageAt, h4 k _ (List.getElem?_eq_getElem hk), this, hd.total, mul_one]

/-- **C93** (uniform temperature).  The heat extraction rates that are drawn for the boreholes: one curve for each borehole, one value for each time, and at every time the average over
the length of the field is one. -/
theorem drawn_rates_ubwt {n : ℕ} {Ls : List ℝ} {rs : List (List ℝ)} {H : Fin n → ℝ} (hd : Divided Ls rs H) {resp : List ℝ → Fin n → Fin n → List ℝ} {time : List ℝ} {thr : ℝ} {g : List ℝ}
    {Qs : List (Fin n → ℝ)} (h : ubwt H resp time thr = some (g, Qs)) :
    ∃ c : List (List ℝ), c.length = rs.length ∧ (∀ x ∈ c, x.length = time.length) ∧
      (∀ i < rs.length, rateCurve .UBWT ⟨rs.map List.length, rs⟩ (Qs.map List.ofFn) time.length i = c[i]?) ∧ ∀ k < time.length, AverageAt Ls c k 1 := by
  obtain ⟨-, h2, h3, -⟩ := ubwt_mean_one h
  rw [← h2]
  exact mean_curves hd h3

/-- **C93** (mixed inlet temperature).  The same. -/
theorem drawn_rates_mift {n : ℕ} {Ls : List ℝ} {rs : List (List ℝ)} {H : Fin n → ℝ} (hd : Divided Ls rs H) {f : Flow n} {resp : List ℝ → Fin n → Fin n → List ℝ} {time : List ℝ} {thr : ℝ}
    {g : List ℝ} {Qs : List (Fin n → ℝ)} {Ts : Fin n → List ℝ} (h : mift H f resp time thr = some (g, Qs, Ts)) :
    ∃ c : List (List ℝ), c.length = rs.length ∧ (∀ x ∈ c, x.length = time.length) ∧
      (∀ i < rs.length, rateCurve .MIFT ⟨rs.map List.length, rs⟩ (Qs.map List.ofFn) time.length i = c[i]?) ∧ ∀ k < time.length, AverageAt Ls c k 1 := by
  obtain ⟨-, h2, -, h3, -⟩ := mift_mean_one h
  rw [← h2]
  exact mean_curves hd h3

/-- **C93** (uniform heat extraction rate).  The drawn rates are one. -/
theorem drawn_rates_uhtr (s : Segs) (Q : List (List ℝ)) (nt i : ℕ) : ∃ c, rateCurve .UHTR s Q nt i = some c ∧ c.length = nt ∧ ∀ v ∈ c, v = 1 :=
  ⟨_, rfl, List.length_replicate, fun _ hv => List.eq_of_mem_replicate hv⟩

/-- **C93** (several mass flow rates).  One curve for each mass flow rate and borehole; for every mass flow rate and at every time the average over the length of the field is one. -/
theorem drawn_rates_flows {n : ℕ} {Ls : List ℝ} {rs : List (List ℝ)} {H : Fin n → ℝ} (hd : Divided Ls rs H) {Qs : List (List (Fin n → ℝ))} (hQ : ∀ q ∈ Qs, ∀ Q ∈ q, MeanOne H Q) :
    ∃ C : List (List (List ℝ)), C.length = Qs.length ∧ (∀ i < rs.length, rateCurves ⟨rs.map List.length, rs⟩ (Qs.map fun q => q.map List.ofFn) i = some (C.map fun c => c.getD i [])) ∧
      ∀ (m : ℕ) (q : List (Fin n → ℝ)) (c : List (List ℝ)), Qs[m]? = some q → C[m]? = some c → c.length = rs.length ∧ (∀ x ∈ c, x.length = q.length) ∧ ∀ k < q.length, AverageAt Ls c k 1 := by
  induction Qs with
  | nil => exact ⟨[], rfl, fun i _ => rfl, fun m q c h => by simp at h⟩
  | cons q Qs ih =>
    obtain ⟨C, h1, h2, h3⟩ := ih fun p hp => hQ p (List.mem_cons_of_mem _ hp)
    obtain ⟨c, g1, g2, g3, g4⟩ := mean_curves hd (hQ q List.mem_cons_self)
    refine ⟨c :: C, by simp [h1], fun i hi => ?_, fun m p d hp hc => ?_⟩
    · have e : c[i]? = some (c.getD i []) := by
        rw [List.getD_eq_getElem?_getD, List.getElem?_eq_getElem (by rw [g1]; exact hi)]; rfl
      have := h2 i hi
      unfold rateCurves at this ⊢
      rw [List.map_cons, List.mapM_cons, this, g3 i hi, e]
      rfl
    · cases m with
      | zero =>
        have e1 : q = p := by simpa using hp
        have e2 : c = d := by simpa using hc
        rw [← e1, ← e2]
        exact ⟨g1, g2, g4⟩
      | succ m => exact h3 m p d (by simpa using hp) (by simpa using hc)

/-- **C93** (uniform temperature).  The drawn temperature of every borehole is the g-function, which the solver returns as the temperature. -/
theorem drawn_temperatures_ubwt (s : Segs) (T : List (List ℝ)) {n : ℕ} {H : Fin n → ℝ} {resp : List ℝ → Fin n → Fin n → List ℝ} {time : List ℝ} {thr : ℝ} {g : List ℝ} {Qs : List (Fin n → ℝ)}
    (h : ubwt H resp time thr = some (g, Qs)) (i : ℕ) : ∃ c, tempCurve .UBWT s T g i = some c ∧ c.length = time.length ∧ ∀ k < time.length, c[k]? = g[k]? :=
  ⟨g, rfl, (ubwt_mean_one h).1, fun _ _ => rfl⟩

theorem linearize_get (time : List ℝ) (thr : ℝ) (x : List ℝ) (k : ℕ) :
    (linearize time thr x).getD k 0 = if pLong time thr > 0 then (if k < pLong time thr then x.headD 0 * time.getD k 0 / thr else x.tail.getD (k - pLong time thr) 0) else x.getD k 0 := by
  have hp : pLong time thr ≤ time.length := by unfold pLong; exact (List.takeWhile_sublist _).length_le
  unfold linearize
  split_ifs with h1 h2
  · rw [List.getD_append _ _ _ _ (by simp; omega)]
    have : k < time.length := by omega
    simp [List.getD_eq_getElem?_getD, h2, this]
  · rw [List.getD_append_right _ _ _ _ (by simp; omega)]
    congr 1
    simp
    omega
  · rfl

/-- **C93** (uniform heat extraction rate).  The drawn temperatures: at every time the average over the length of the field is the g-function. -/
theorem drawn_temperatures_uhtr {n : ℕ} {Ls : List ℝ} {rs : List (List ℝ)} {H : Fin n → ℝ} (hd : Divided Ls rs H) (h0 : 0 < Ls.sum) (resp : List ℝ → Fin n → Fin n → List ℝ) (time : List ℝ)
    (thr : ℝ) (T : List (Fin n → ℝ)) (hT : T.length = time.length) (hv : ∀ (k : ℕ) (x : Fin n → ℝ), T[k]? = some x → ∀ j, x j = (uhtrTs resp time thr j).getD k 0) :
    ∃ c : List (List ℝ), c.length = rs.length ∧ (∀ x ∈ c, x.length = time.length) ∧
      (∀ i < rs.length, tempCurve .UHTR ⟨rs.map List.length, rs⟩ (T.map List.ofFn) [] i = c[i]?) ∧
      ∀ k < time.length, AverageAt Ls c k ((uhtr H resp time thr).getD k 0) := by
  obtain ⟨c, h1, h2, h3, h4⟩ := curves_total Ls rs hd.boreholes H hd.sources T
  refine ⟨c, h1, fun x hx => by rw [h2 x hx, hT], h3, fun k hk => ?_⟩
  have hk' : T[k]? = some (T[k]'(by omega)) := List.getElem?_eq_getElem _
  have hS : ∑ i, H i ≠ 0 := by rw [hd.total]; exact h0.ne'
  have hg : ∀ p, ∑ j, H j * (((List.range (timeLong time thr).length).map fun p => uhtrT (resp (timeLong time thr)) p j).getD p 0) =
      (∑ i, H i) * ((List.range (timeLong time thr).length).map (uhtrG H (resp (timeLong time thr)))).getD p 0 := by
    intro p
    by_cases hp : p < (timeLong time thr).length
    · simp only [List.getD_eq_getElem?_getD, List.getElem?_map, List.getElem?_range hp, Option.map_some, Option.getD_some, uhtrG]
      rw [mul_div_cancel₀ _ hS]
      exact Finset.sum_congr rfl fun j _ => mul_comm _ _
    · have e : (List.range (timeLong time thr).length)[p]? = none := by simp; omega
      simp only [List.getD_eq_getElem?_getD, List.getElem?_map, e, Option.map_none, Option.getD_none]
      simp
  have hh : ∀ l : List ℝ, l.headD 0 = l.getD 0 0 := fun l => by cases l <;> rfl
  have ht : ∀ (l : List ℝ) (m : ℕ), l.tail.getD m 0 = l.getD (m + 1) 0 := fun l m => by cases l <;> simp
  rw [AverageAt, h4 k _ hk', ← hd.total]
  simp only [hv k _ hk']
  unfold uhtr uhtrTs
  dsimp only
  simp only [linearize_get, hh, ht]
  split_ifs
  · rw [← mul_div_assoc, ← mul_assoc, ← hg 0, Finset.sum_mul, Finset.sum_div]
    exact Finset.sum_congr rfl fun j _ => by ring
  · exact hg _
  · exact hg _

/-- Two boreholes of 100 m and 150 m, the first with two segments. -/
def twoLengths : Fin 3 → ℝ := ![25, 75, 150]

theorem twoDivided : Divided [100, 150] [[1 / 4, 3 / 4], [1]] twoLengths :=
  ⟨rfl, by norm_num, by norm_num [twoLengths, sourceLengths, List.ofFn_succ]⟩

example : ∃ c : List (List ℝ), c.length = 2 ∧ ∀ k < 1, AverageAt [100, 150] c k 1 := by
  obtain ⟨c, h1, -, -, h4⟩ := mean_curves twoDivided (Qs := [![2, 2, 1 / 3]]) (by
    intro Q hQ
    rw [List.mem_singleton] at hQ
    subst hQ
    norm_num [MeanOne, twoLengths, Fin.sum_univ_succ])
  exact ⟨c, h1, h4⟩

/-! ### Profiles -/

theorem line_linear (p q x a v w : ℝ) (s t : ℝ) : line (p, a * v + w) (q, a * s + t) x = a * line (p, v) (q, s) x + line (p, w) (q, t) x := by
  unfold line
  dsimp only
  ring

theorem interpGo_linear (x a : ℝ) (ts : List ℝ) (p v w : ℝ) (f g : List ℝ) (hf : f.length = ts.length) (hg : g.length = ts.length) :
    interpGo x (p, a * v + w) (List.zip ts (List.zipWith (fun y z => a * y + z) f g)) = a * interpGo x (p, v) (List.zip ts f) + interpGo x (p, w) (List.zip ts g) := by
  induction ts generalizing p v w f g with
  | nil => simp [interpGo]
  | cons q ts ih =>
    obtain ⟨y, f, rfl⟩ := List.exists_cons_of_length_eq_add_one hf
    obtain ⟨z, g, rfl⟩ := List.exists_cons_of_length_eq_add_one hg
    cases ts with
    | nil =>
      have e1 : f = [] := List.length_eq_zero_iff.mp (by simpa using hf)
      have e2 : g = [] := List.length_eq_zero_iff.mp (by simpa using hg)
      subst e1 e2
      simp only [List.zipWith_cons_cons, List.zip_cons_cons, List.zipWith_nil_left, List.zip_nil_left, interpGo]
      exact line_linear ..
    | cons r ts =>
      obtain ⟨y', f, rfl⟩ := List.exists_cons_of_length_eq_add_one (by simpa using hf : f.length = ts.length + 1)
      obtain ⟨z', g, rfl⟩ := List.exists_cons_of_length_eq_add_one (by simpa using hg : g.length = ts.length + 1)
      have := ih q y z (y' :: f) (z' :: g) (by simpa using hf) (by simpa using hg)
      simp only [List.zipWith_cons_cons, List.zip_cons_cons, interpGo] at this ⊢
      split_ifs
      · exact line_linear ..
      · exact this

/-- Specification: `t` lies between the first and the last of the times. -/
def Within (times : List ℝ) (t : ℝ) : Prop := ∃ (p : ℝ) (l : List ℝ), times = p :: l ∧ p ≤ t ∧ t ≤ l.getLastD p

theorem zip_last (l f : List ℝ) (p v : ℝ) (h : f.length = l.length) : ((List.zip l f).getLastD (p, v)).1 = l.getLastD p := by
  induction l generalizing p v f with
  | nil => simp
  | cons q l ih =>
    obtain ⟨y, f, rfl⟩ := List.exists_cons_of_length_eq_add_one h
    rw [List.zip_cons_cons, List.getLastD_cons, List.getLastD_cons, ih f q y (by simpa using h)]

/-- Interpolation succeeds exactly between the first and the last time. -/
theorem interp_isSome (times f : List ℝ) (h : f.length = times.length) (t : ℝ) : (interp (List.zip times f) t).isSome ↔ Within times t := by
  cases times with
  | nil => simp [interp, Within]
  | cons p l =>
    obtain ⟨v, f, rfl⟩ := List.exists_cons_of_length_eq_add_one h
    rw [List.zip_cons_cons, interp, zip_last _ _ _ _ (by simpa using h)]
    constructor
    · intro hs
      split at hs
      · rename_i hc; exact ⟨p, l, rfl, hc.1, hc.2⟩
      · simp at hs
    · rintro ⟨p', l', he, h1, h2⟩
      obtain ⟨rfl, rfl⟩ := List.cons.inj he
      rw [if_pos ⟨h1, h2⟩]
      rfl

theorem interp_linear (times f g : List ℝ) (hf : f.length = times.length) (hg : g.length = times.length) (a t u v : ℝ) (h1 : interp (List.zip times f) t = some u)
    (h2 : interp (List.zip times g) t = some v) : interp (List.zip times (List.zipWith (fun y z => a * y + z) f g)) t = some (a * u + v) := by
  cases times with
  | nil => simp [interp] at h1
  | cons p l =>
    obtain ⟨y, f, rfl⟩ := List.exists_cons_of_length_eq_add_one hf
    obtain ⟨z, g, rfl⟩ := List.exists_cons_of_length_eq_add_one hg
    have hf' : f.length = l.length := by simpa using hf
    have hg' : g.length = l.length := by simpa using hg
    rw [List.zip_cons_cons, interp, zip_last _ _ _ _ hf'] at h1
    rw [List.zip_cons_cons, interp, zip_last _ _ _ _ hg'] at h2
    split at h1
    · rename_i hc
      rw [if_pos hc] at h2
      rw [List.zipWith_cons_cons, List.zip_cons_cons, interp, zip_last _ _ _ _ (by simp [hf', hg']), if_pos hc, interpGo_linear _ _ _ _ _ _ _ _ hf' hg', Option.some.inj h1,
        Option.some.inj h2]
    · simp at h1

theorem interpGo_zero (x p : ℝ) (l : List ℝ) : interpGo x (p, 0) (List.zip l (l.map fun _ => 0)) = 0 := by
  induction l generalizing p with
  | nil => rfl
  | cons q l ih =>
    cases l with
    | nil => simp [interpGo, line]
    | cons r l =>
      have := ih q
      simp only [List.map_cons, List.zip_cons_cons, interpGo] at this ⊢
      split_ifs
      · simp [line]
      · exact this

/-- The weighted sum of interpolated values is the interpolated weighted sum. -/
theorem interp_weighted {times : List ℝ} {t : ℝ} (ht : Within times t) (Q : List (List ℝ)) (hQ : Q.length = times.length) (js : List ℕ) (r : List ℝ) (hr : r.length = js.length) :
    ∃ x, (js.mapM fun j => interp (List.zip times (Q.map fun q => q.getD j 0)) t) = some x ∧ x.length = js.length ∧
      interp (List.zip times (Q.map fun q => (List.zipWith (· * ·) (js.map fun j => q.getD j 0) r).sum)) t = some (List.zipWith (· * ·) x r).sum := by
  induction js generalizing r with
  | nil =>
    refine ⟨[], rfl, rfl, ?_⟩
    obtain ⟨p, l, rfl, h1, h2⟩ := ht
    have e : (Q.map fun q : List ℝ => (List.zipWith (· * ·) (([] : List ℕ).map fun j => q.getD j 0) r).sum) = (p :: l).map fun _ => (0 : ℝ) := by
      apply List.ext_getElem
      · simpa using hQ
      · intro i _ _
        rw [List.getElem_map, List.getElem_map]
        simp
    rw [e, List.map_cons, List.zip_cons_cons, interp, zip_last _ _ _ _ (by simp), if_pos ⟨h1, h2⟩, interpGo_zero]
    simp
  | cons j js ih =>
    obtain ⟨a, r, rfl⟩ := List.exists_cons_of_length_eq_add_one hr
    obtain ⟨x, hx, hl, hs⟩ := ih r (by simpa using hr)
    obtain ⟨u, hu⟩ := Option.isSome_iff_exists.mp ((interp_isSome times (Q.map fun q => q.getD j 0) (by simp [hQ]) t).mpr ht)
    refine ⟨u :: x, by rw [List.mapM_cons, hu, hx]; rfl, by simp [hl], ?_⟩
    have := interp_linear times _ _ (by simp [hQ]) (by simp [hQ]) a t u _ hu hs
    rw [List.zipWith_cons_cons, List.sum_cons, mul_comm u a, ← this]
    congr 2
    apply List.ext_getElem
    · simp
    · intro i _ _
      simp [mul_comm]

theorem mapM_get {α : Type} (f : α → Option ℝ) (Q : List α) (c : List ℝ) (h : Q.mapM f = some c) : c.length = Q.length ∧ ∀ (k : ℕ) (q : α), Q[k]? = some q → f q = c[k]? := by
  induction Q generalizing c with
  | nil =>
    have : c = [] := by simpa using h.symm
    subst this
    exact ⟨rfl, fun k q hk => by simp at hk⟩
  | cons a Q ih =>
    rw [List.mapM_cons] at h
    cases ha : f a with
    | none => rw [ha] at h; exact absurd h (by simp)
    | some v =>
      cases hc : Q.mapM f with
      | none => rw [ha, hc] at h; exact absurd h (by simp)
      | some c' =>
        rw [ha, hc] at h
        have e : c = v :: c' := (Option.some.inj h).symm
        obtain ⟨h1, h2⟩ := ih c' hc
        subst e
        refine ⟨by simp [h1], fun k q hk => ?_⟩
        cases k with
        | zero =>
          have : a = q := by simpa using hk
          rw [← this, ha]
          rfl
        | succ k => rw [List.getElem?_cons_succ]; exact h2 k q (by simpa using hk)

theorem range_slice (a b m : ℕ) (hb : b ≤ m) : slice a b (List.range m) = (List.range (b - a)).map (a + ·) := by
  apply List.ext_getElem
  · simp [slice]; omega
  · intro i h1 h2; simp [slice]

theorem slice_getD (x : List ℝ) (a b : ℕ) (hb : b ≤ x.length) : slice a b x = (List.range (b - a)).map fun k => x.getD (a + k) 0 := by
  apply List.ext_getElem
  · simp [slice]; omega
  · intro i h1 h2
    have h3 : i < b - a := by simpa using h2
    have : a + i < x.length := by omega
    simp [slice, this]

theorem i1_sub {ns : List ℕ} {i m : ℕ} (h : ns[i]? = some m) : i1 ns i - i0 ns i = m ∧ i1 ns i ≤ ns.sum := by
  obtain ⟨hi, rfl⟩ := List.getElem?_eq_some_iff.mp h
  have e : i1 ns i = i0 ns i + ns[i] := by unfold i1 i0; rw [List.sum_take_succ _ _ hi]
  refine ⟨by omega, ?_⟩
  unfold i1
  conv_rhs => rw [← List.take_append_drop (i + 1) ns, List.sum_append]
  omega

/-- **C93** (profiles).  The values of the profile of a borehole, averaged over its length, are the value of its curve: the last one if no time is given, the linear interpolation of the curve
otherwise.  A time outside of the times of the g-function raises. -/
theorem profile_average {s : Segs} (hs : s.rs.map List.length = s.ns) {times : List ℝ} {Q : List (List ℝ)} (hQ : Q.length = times.length) (hq : ∀ q ∈ Q, q.length = s.ns.sum) (h0 : Q ≠ [])
    {i : ℕ} {r : List ℝ} (hr : s.rs[i]? = some r) :
    ∃ c : List ℝ, averages s Q i = some c ∧ c.length = Q.length ∧
      (∃ x, valuesAt s times Q i none = some x ∧ x.length = r.length ∧ ratioSum r x = c.getLast?) ∧
      (∀ t, Within times t → ∃ x, valuesAt s times Q i (some t) = some x ∧ x.length = r.length ∧ ratioSum r x = interp (List.zip times c) t) ∧
      (∀ t, ¬ Within times t → r ≠ [] → valuesAt s times Q i (some t) = none) := by
  have hn : s.ns[i]? = some r.length := by rw [← hs, List.getElem?_map, hr]; rfl
  obtain ⟨hlen, hle⟩ := i1_sub hn
  have hsl : ∀ q ∈ Q, slice (i0 s.ns i) (i1 s.ns i) q = (List.range r.length).map fun k => q.getD (i0 s.ns i + k) 0 := fun q hm => by
    rw [slice_getD _ _ _ (by rw [hq q hm]; exact hle), hlen]
  have hsll : ∀ q ∈ Q, (slice (i0 s.ns i) (i1 s.ns i) q).length = r.length := fun q hm => by rw [hsl q hm]; simp
  have hjs : slice (i0 s.ns i) (i1 s.ns i) (List.range s.ns.sum) = (List.range r.length).map (i0 s.ns i + ·) := by rw [range_slice _ _ _ hle, hlen]
  have hc : averages s Q i = some (Q.map fun q => (List.zipWith (· * ·) (slice (i0 s.ns i) (i1 s.ns i) q) r).sum) := by
    unfold averages
    rw [hn, hr]
    dsimp only
    clear hQ h0 hq hsl
    induction Q with
    | nil => rfl
    | cons q Q ih =>
      rw [List.mapM_cons, ih fun p hp => hsll p (List.mem_cons_of_mem _ hp), ratioSum, if_pos (hsll q List.mem_cons_self)]
      rfl
  refine ⟨_, hc, by simp, ?_, fun t ht => ?_, fun t ht hr0 => ?_⟩
  · obtain ⟨q, hl⟩ : ∃ q, Q.getLast? = some q := ⟨_, List.getLast?_eq_some_getLast h0⟩
    have hm : q ∈ Q := List.mem_of_getLast? hl
    refine ⟨slice (i0 s.ns i) (i1 s.ns i) q, by rw [valuesAt, hl]; rfl, hsll q hm, ?_⟩
    rw [ratioSum, if_pos (hsll q hm), List.getLast?_map, hl]
    rfl
  · obtain ⟨x, h1, h2, h3⟩ := interp_weighted ht Q hQ (slice (i0 s.ns i) (i1 s.ns i) (List.range s.ns.sum)) r (by rw [hjs]; simp)
    have hx : x.length = r.length := by rw [h2, hjs]; simp
    refine ⟨x, h1, hx, ?_⟩
    rw [ratioSum, if_pos hx, ← h3]
    congr 2
    refine List.map_congr_left fun q hm => ?_
    rw [hjs, hsl q hm, List.map_map]
    rfl
  · rw [valuesAt, hjs]
    cases hrl : r.length with
    | zero => exact absurd (List.length_eq_zero_iff.mp hrl) hr0
    | succ m =>
      rw [List.range_succ_eq_map, List.map_cons, List.mapM_cons]
      have : interp (List.zip times (Q.map fun q => q.getD (i0 s.ns i + 0) 0)) t = none := by
        rw [← Option.not_isSome_iff_eq_none, interp_isSome _ _ (by simp [hQ])]
        exact ht
      rw [this]
      rfl

example : Within [1, 2, 3] (5 / 2) := ⟨1, [2, 3], rfl, by norm_num, by norm_num⟩

/-! ### Depths -/

/-- Specification: the depth of the middle of a segment. -/
def middleDepth (s : Borehole) : ℝ := (axisPoint s (s.H / 2)).2.2

theorem depth_gap (b : Borehole) (hb : WF b) (a : ℝ) (r : List ℝ) :
    (segsFrom b a r).map middleDepth = (midsFrom b.H a r).map fun m => b.D + m * Real.cos b.tilt := by
  induction r generalizing a with
  | nil => rfl
  | cons ρ r ih =>
    have h1 : (b.segmentAt (a * b.H) ρ).D = b.D + a * b.H * Real.cos b.tilt := rfl
    obtain ⟨h2, -, -, h3⟩ := segmentAt_fields b hb (a * b.H) ρ
    rw [segsFrom, midsFrom, List.map_cons, List.map_cons, ih]
    congr 1
    simp only [middleDepth, axisPoint, h1, h2, h3]
    ring

/-- **C94.**  For a vertical borehole with several segments, the depths of the profile are those of the middles of the segments; with one segment, the profile goes from the head to
the toe.  (`_partial`: for inclined boreholes see `profile_depths_inclined`.) -/
theorem profile_depths_partial (b : Borehole) (hb : WF b) (hv : b.tilt = 0) (r : List ℝ) :
    (1 < r.length → depths b false r = (b.segments r).map middleDepth) ∧ (r.length ≤ 1 → depths b false r = [(headPoint b).2.2, (toePoint b).2.2]) ∧
    depths b true r = [(headPoint b).2.2, (toePoint b).2.2] := by
  have ht : (toePoint b).2.2 = b.D + b.H := by simp [toePoint, axisPoint, hv]
  refine ⟨fun h => ?_, fun h => ?_, ?_⟩
  · simp only [depths, h, decide_true, Bool.not_false, Bool.and_self, if_true]
    rw [segments_eq, depth_gap b hb, midpoints_spec, hv]
    simp
  · have : ¬ 1 < r.length := by omega
    rw [ht]
    simp [depths, this, headPoint]
  · rw [ht]
    simp [depths, headPoint]

example : WF ⟨150, 4, 3 / 40, 0, 0, 0, 0⟩ := fun _ => rfl

/-- **C94** (negation).  For an inclined borehole, the depths of the profile are distances along the borehole: every one below the head is deeper than the middle of the segment. -/
theorem profile_depths_inclined (b : Borehole) (hb : WF b) (hc : Real.cos b.tilt < 1) (hH : 0 < b.H) (r : List ℝ) (h1 : 1 < r.length) (hr : ∀ ρ ∈ r, 0 < ρ) :
    (depths b false r).length = (b.segments r).length ∧
    ∀ (k : ℕ) (z : ℝ) (s : Borehole), (depths b false r)[k]? = some z → (b.segments r)[k]? = some s → middleDepth s < z := by
  have hd : depths b false r = (midsFrom b.H 0 r).map (b.D + ·) := by simp [depths, h1, midpoints_spec]
  have hm : ∀ (a : ℝ), 0 ≤ a → ∀ (l : List ℝ), (∀ ρ ∈ l, 0 < ρ) → ∀ m ∈ midsFrom b.H a l, 0 < m := by
    intro a ha l
    induction l generalizing a with
    | nil => intro _ m hm; simp [midsFrom] at hm
    | cons ρ l ih =>
      intro hl m hm
      have hρ := hl ρ List.mem_cons_self
      rw [midsFrom, List.mem_cons] at hm
      rcases hm with rfl | hm
      · have : 0 < (a + ρ) * b.H := by positivity
        have : 0 ≤ a * b.H := by positivity
        linarith
      · exact ih (a + ρ) (by linarith) (fun x hx => hl x (List.mem_cons_of_mem _ hx)) m hm
  have hg := depth_gap b hb 0 r
  rw [← segments_eq] at hg
  have hlen := congrArg List.length hg
  simp only [List.length_map] at hlen
  refine ⟨by rw [hd, List.length_map, hlen], fun k z s hz hs => ?_⟩
  have e : (midsFrom b.H 0 r)[k]?.map (fun m => b.D + m * Real.cos b.tilt) = some (middleDepth s) := by
    rw [← List.getElem?_map, ← hg, List.getElem?_map, hs]; rfl
  rw [hd, List.getElem?_map] at hz
  cases hk : (midsFrom b.H 0 r)[k]? with
  | none => rw [hk] at hz; simp at hz
  | some m =>
    rw [hk] at hz e
    have hz' : b.D + m = z := by simpa using hz
    have he' : b.D + m * Real.cos b.tilt = middleDepth s := by simpa using e
    have := hm 0 le_rfl r hr m (List.mem_of_getElem? hk)
    rw [← hz', ← he']
    nlinarith

example : Real.cos (1 : ℝ) < 1 := by
  have := Real.cos_lt_cos_of_nonneg_of_le_pi_div_two le_rfl (by linarith [Real.two_le_pi] : (1 : ℝ) ≤ Real.pi / 2) one_pos
  rwa [Real.cos_zero] at this

/-! ### When profiles are drawn -/

theorem doubled_length (r x : List ℝ) (h : x.length = r.length) (h0 : r ≠ []) (b : Borehole) : (doubled r x).length = (depths b false r).length := by
  have hm : (b.midpoints r).length = r.length := by
    rw [midpoints_spec]
    have : ∀ a, (midsFrom b.H a r).length = r.length := by
      clear h h0
      induction r with
      | nil => intro a; rfl
      | cons ρ r ih => intro a; rw [midsFrom, List.length_cons, List.length_cons, ih]
    exact this 0
  have h1 : 0 < r.length := List.length_pos_iff.mpr h0
  unfold doubled depths
  by_cases hr : 1 < r.length
  · simp [hr, h, hm]
  · have e : x.length = 1 := by omega
    obtain ⟨v, rfl⟩ := List.length_eq_one_iff.mp e
    simp [hr]

/-- **C95.**  Profiles of one mass flow rate: heat extraction rates for every boundary condition and temperatures for all but the uniform temperature are drawn at the last time and at any time
within the times of the g-function, with as many values as depths.  (`_partial`: see `uniform_temperature_profile_raises` and `several_flows_at_time_wrong`.) -/
theorem profiles_drawn_partial (bc : BC) {bs : List Borehole} {s : Segs} (hs : Consistent bs s.ns s.rs) (hpos : ∀ r ∈ s.rs, r ≠ []) {times : List ℝ} {Q : List (List ℝ)} (hQ : Q.length = times.length)
    (hq : ∀ q ∈ Q, q.length = s.ns.sum) (h0 : Q ≠ []) {i : ℕ} (hi : i < bs.length) (time : Option ℝ) (ht : ∀ t, time = some t → Within times t) :
    (∃ z v, rateProfile bc bs s times Q time i = some (z, v) ∧ z.length = v.length ∧ (bc = .UHTR → ∀ x ∈ v, x = 1)) ∧
    (bc ≠ .UBWT → ∃ z v, tempProfile bc bs s times Q time i = some (z, v) ∧ z.length = v.length) := by
  have hl : s.rs.length = bs.length := by rw [← hs.segs, ← hs.ratios, List.length_map]
  have hb : bs[i]? = some bs[i] := List.getElem?_eq_getElem hi
  have hr : s.rs[i]? = some (s.rs[i]'(by omega)) := List.getElem?_eq_getElem _
  obtain ⟨b, hb'⟩ : ∃ b, b = bs[i] := ⟨_, rfl⟩
  obtain ⟨r, hr'⟩ : ∃ r, r = s.rs[i]'(by omega) := ⟨_, rfl⟩
  rw [← hb'] at hb
  rw [← hr'] at hr
  have hr0 : r ≠ [] := hpos r (List.mem_of_getElem? hr)
  obtain ⟨c, -, -, h1, h2, -⟩ := profile_average hs.ratios (times := times) hQ hq h0 hr
  obtain ⟨x, hx, hxl⟩ : ∃ x, valuesAt s times Q i time = some x ∧ x.length = r.length := by
    cases time with
    | none => obtain ⟨x, a, b, -⟩ := h1; exact ⟨x, a, b⟩
    | some t => obtain ⟨x, a, b, -⟩ := h2 t (ht t rfl); exact ⟨x, a, b⟩
  have hd := doubled_length r x hxl hr0 b
  unfold rateProfile tempProfile
  rw [hb, hr]
  constructor
  · cases bc
    · exact ⟨_, _, rfl, by simp [depths], fun _ y hy => by simpa using hy⟩
    · exact ⟨depths b false r, doubled r x, by simp only [hx], hd.symm, fun h => by cases h⟩
    · exact ⟨depths b false r, doubled r x, by simp only [hx], hd.symm, fun h => by cases h⟩
  · intro hbc
    cases bc
    · exact ⟨depths b false r, doubled r x, by simp only [hx], hd.symm⟩
    · exact absurd rfl hbc
    · exact ⟨depths b false r, doubled r x, by simp only [hx], hd.symm⟩

/-- **C95** (negation).  Temperature profiles of a uniform temperature are never drawn: the call raises for every field, time and borehole. -/
theorem uniform_temperature_profile_raises (bs : List Borehole) (s : Segs) (times : List ℝ) (T : List (List ℝ)) (time : Option ℝ) (i : ℕ) : tempProfile .UBWT bs s times T time i = none := by
  unfold tempProfile
  split <;> rfl

/-- **C95.**  With several mass flow rates, the profiles at the last time are those of each mass flow rate.  (`_partial`: see `several_flows_at_time_wrong`.) -/
theorem several_flows_last_partial {s : Segs} (hs : s.rs.map List.length = s.ns) {times : List ℝ} {Q : List (List (List ℝ))} (hQ : ∀ q ∈ Q, q ≠ [] ∧ ∀ x ∈ q, x.length = s.ns.sum) {i : ℕ} {r : List ℝ}
    (hr : s.rs[i]? = some r) :
    ∃ P : List (List ℝ), rateProfiles s times Q i none = some P ∧ tempProfiles s times Q i none = some P ∧ P.length = Q.length ∧
      ∀ (m : ℕ) (q : List (List ℝ)) (x : List ℝ), Q[m]? = some q → P[m]? = some x → x.length = r.length ∧ valuesAt s times q i none = some x := by
  have hn : s.ns[i]? = some r.length := by rw [← hs, List.getElem?_map, hr]; rfl
  obtain ⟨hlen, hle⟩ := i1_sub hn
  have key : ∃ P : List (List ℝ), rateProfiles s times Q i none = some P ∧ P.length = Q.length ∧
      ∀ (m : ℕ) (q : List (List ℝ)) (x : List ℝ), Q[m]? = some q → P[m]? = some x → x.length = r.length ∧ valuesAt s times q i none = some x := by
    induction Q with
    | nil => exact ⟨[], rfl, rfl, fun m q x h => by simp at h⟩
    | cons q Q ih =>
      obtain ⟨P, h1, h2, h3⟩ := ih fun p hp => hQ p (List.mem_cons_of_mem _ hp)
      obtain ⟨h0, hx⟩ := hQ q List.mem_cons_self
      obtain ⟨y, hl⟩ : ∃ y, q.getLast? = some y := ⟨_, List.getLast?_eq_some_getLast h0⟩
      have hm : y ∈ q := List.mem_of_getLast? hl
      refine ⟨slice (i0 s.ns i) (i1 s.ns i) y :: P, ?_, by simp [h2], fun m p x hp hq => ?_⟩
      · unfold rateProfiles at h1 ⊢
        dsimp only at h1 ⊢
        rw [List.mapM_cons, h1, hl]
        rfl
      · cases m with
        | zero =>
          have e1 : q = p := by simpa using hp
          have e2 : slice (i0 s.ns i) (i1 s.ns i) y = x := by simpa using hq
          rw [← e1, ← e2]
          refine ⟨?_, by rw [valuesAt, hl]; rfl⟩
          rw [slice_getD _ _ _ (by rw [hx y hm]; exact hle), hlen]
          simp
        | succ m => exact h3 m p x (by simpa using hp) (by simpa using hq)
  obtain ⟨P, h1, h2, h3⟩ := key
  exact ⟨P, h1, h1, h2, h3⟩

/-- **C95** (negation).  With several mass flow rates and a time, the profile of a borehole has a row for each of its segments that is also the index of a mass flow rate, and in it the values of
all sources of the field: with two mass flow rates and two boreholes of one segment, the profile of the first borehole is one row with the values of both boreholes for the first mass flow
rate, instead of one value for each mass flow rate. -/
theorem several_flows_at_time_wrong (a b c d : ℝ) :
    rateProfiles ⟨[1, 1], [[1], [1]]⟩ [1, 2] [[[a, b], [a, b]], [[c, d], [c, d]]] 0 (some 2) = some [[a, b]] ∧
    rateProfiles ⟨[1, 1], [[1], [1]]⟩ [1, 2] [[[a, b], [a, b]], [[c, d], [c, d]]] 0 none = some [[a], [c]] := by
  constructor
  · simp only [rateProfiles]
    norm_num [slice, i0, i1, interp, interpGo, line, List.range_succ]
  · simp [rateProfiles, slice, i0, i1]

/-- **C95** (negation).  Temperature profiles of several mass flow rates at a given time raise unless the number of sources is the number of times. -/
theorem several_flows_temperature_raises (s : Segs) (times : List ℝ) (T : List (List (List ℝ))) (i : ℕ) (t : ℝ) (h : s.ns.sum ≠ times.length) : tempProfiles s times T i (some t) = none := by
  rw [tempProfiles, if_neg h]

example : (⟨[1, 1], [[1], [1]]⟩ : Segs).ns.sum ≠ ([1, 2, 3] : List ℝ).length := by decide

end Verif.Gf
