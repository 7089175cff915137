import Verif.Sol.HistModel

/-! # Lemmas on the load history -/

noncomputable section

namespace Verif.Sol

open Bore

/-! ### Specification -/

/-- The heat extracted up to the time `x` by the loads that end at the given times; the first begins at `a`. -/
def heatFrom (a : ℝ) : List (ℝ × ℝ) → ℝ → ℝ
  | [], _ => 0
  | (t, q) :: l, x => q * max 0 (min x t - a) + heatFrom t l x

/-- Load `Q[k]` acts from `time[k-1]` (or 0) to `time[k]`. -/
def heat (time Q : List ℝ) (x : ℝ) : ℝ := heatFrom 0 (List.zip time Q) x

/-- The times measured backwards from the end `T`, in increasing order. -/
def backward (T : ℝ) (grid : List ℝ) : List ℝ := grid.reverse.map fun t => T - t

/-- The mean slopes of `F` over the intervals of a grid. -/
def slopes (F : ℝ → ℝ) : List ℝ → List ℝ
  | a :: b :: l => (F b - F a) / (b - a) :: slopes F (b :: l)
  | _ => []

/-- The heat extracted by loads over the intervals of a grid. -/
def totalHeat : List ℝ → List ℝ → ℝ
  | a :: b :: l, q :: qs => q * (b - a) + totalHeat (b :: l) qs
  | _, _ => 0

/-- Positive, increasing times. -/
def Increasing : ℝ → List ℝ → Prop
  | _, [] => True
  | a, t :: l => a < t ∧ Increasing t l

/-- Duhamel's sum: each change of load acts for the time from its start to `T`. -/
def duhamel (H : ℝ → ℝ) (T : ℝ) : ℝ → List ℝ → List ℝ → ℝ
  | prev, s :: ss, q :: qs => (q - prev) * H (T - s) + duhamel H T q ss qs
  | _, _, _ => 0

/-! ### Lemmas -/

theorem diffs_eq (l : List ℝ) : diffs l = diffsFrom 0 l := by cases l <;> simp [diffs, diffsFrom]

theorem diffsFrom_length (a : ℝ) (l : List ℝ) : (diffsFrom a l).length = l.length := by
  induction l generalizing a with
  | nil => rfl
  | cons t l ih => simp [diffsFrom, ih]

theorem diffsFrom_sum (a : ℝ) (l : List ℝ) : (diffsFrom a l).sum = l.getLastD a - a := by
  induction l generalizing a with
  | nil => simp [diffsFrom]
  | cons t l ih => simp only [diffsFrom, List.sum_cons, ih, List.getLastD_cons]; ring

theorem cumsum_snoc (c : ℝ) (l : List ℝ) (y : ℝ) : cumsumFrom c (l ++ [y]) = cumsumFrom c l ++ [c + l.sum + y] := by
  induction l generalizing c with
  | nil => simp [cumsumFrom]
  | cons v l ih => simp only [List.cons_append, cumsumFrom, ih, List.sum_cons, add_assoc]

theorem getLast_mem (a : ℝ) (l : List ℝ) : l.getLastD a ∈ a :: l := by
  induction l generalizing a with
  | nil => simp
  | cons t l ih => rw [List.getLastD_cons]; exact List.mem_cons_of_mem _ (ih t)

theorem backward_cons (T a t : ℝ) (l : List ℝ) : backward T (a :: t :: l) = backward T (t :: l) ++ [T - a] := by simp [backward]

theorem backward_eq (a : ℝ) (l : List ℝ) : 0 :: cumsumFrom 0 (diffsFrom a l).reverse = backward (l.getLastD a) (a :: l) := by
  induction l generalizing a with
  | nil => simp [diffsFrom, cumsumFrom, backward]
  | cons t l ih =>
    rw [List.getLastD_cons, backward_cons, ← ih t]
    simp only [diffsFrom, List.reverse_cons, cumsum_snoc, List.cons_append, List.sum_reverse, diffsFrom_sum]
    congr 3; ring

theorem Increasing.le {a : ℝ} {l : List ℝ} (h : Increasing a l) : ∀ t ∈ a :: l, a ≤ t ∧ t ≤ l.getLastD a := by
  induction l generalizing a with
  | nil => simp
  | cons t l ih =>
    intro x hx
    rw [List.getLastD_cons]
    have := ih h.2
    have ht := this t List.mem_cons_self
    rcases List.mem_cons.mp hx with rfl | hx
    · exact ⟨le_rfl, h.1.le.trans ht.2⟩
    · exact ⟨h.1.le.trans (this x hx).1, (this x hx).2⟩

theorem heatFrom_zero {a : ℝ} (l : List (ℝ × ℝ)) (h : Increasing a (l.map Prod.fst)) {x : ℝ} (hx : x ≤ a) : heatFrom a l x = 0 := by
  induction l generalizing a with
  | nil => rfl
  | cons p l ih =>
    obtain ⟨t, q⟩ := p
    rw [heatFrom, ih h.2 (hx.trans h.1.le), max_eq_left (by linarith [min_le_left x t])]
    ring

/-- The points of the cumulated heat. -/
def knots (a F : ℝ) : List (ℝ × ℝ) → List (ℝ × ℝ)
  | [] => []
  | (t, q) :: l => (t, F + q * (t - a)) :: knots t (F + q * (t - a)) l

theorem interpGo_heat {a : ℝ} (F : ℝ) (s : ℝ × ℝ) (l : List (ℝ × ℝ)) (h : Increasing a ((s :: l).map Prod.fst)) {x : ℝ} (hx : a ≤ x)
    (hx' : x ≤ (l.map Prod.fst).getLastD s.1) : interpGo x (a, F) (knots a F (s :: l)) = F + heatFrom a (s :: l) x := by
  induction l generalizing a F s with
  | nil =>
    obtain ⟨t, q⟩ := s
    have h1 : a < t := h.1
    have h2 : x ≤ t := hx'
    have : t - a ≠ 0 := by linarith
    simp only [knots, interpGo, line, heatFrom, min_eq_left h2, max_eq_right (sub_nonneg.mpr hx)]
    field_simp
    ring
  | cons s' l ih =>
    obtain ⟨t, q⟩ := s
    obtain ⟨t', q'⟩ := s'
    have h1 : a < t := h.1
    have h0 : t - a ≠ 0 := by linarith
    rw [knots, knots, interpGo, ← knots]
    split_ifs with hc
    · have hc' : x ≤ t := hc
      rw [heatFrom, heatFrom_zero _ h.2 hc', min_eq_left hc', max_eq_right (sub_nonneg.mpr hx)]
      simp only [line]
      field_simp
      ring
    · have hc' : t < x := not_le.mp hc
      rw [ih _ _ h.2 hc'.le (by rw [List.map_cons, List.getLastD_cons] at hx'; exact hx')]
      conv_rhs => rw [heatFrom, min_eq_right hc'.le, max_eq_right (by linarith : (0 : ℝ) ≤ t - a)]
      ring

theorem zip_knots (a F : ℝ) (ts Q : List ℝ) (hl : Q.length = ts.length) :
    List.zip ts (cumsumFrom F (List.zipWith (· * ·) Q (diffsFrom a ts))) = knots a F (List.zip ts Q) := by
  induction ts generalizing a F Q with
  | nil => simp [knots]
  | cons t ts ih =>
    match Q, hl with
    | q :: Q, hl =>
      simp only [diffsFrom, List.zipWith_cons_cons, cumsumFrom, List.zip_cons_cons, knots]
      rw [ih t _ Q (by simpa using hl)]

theorem knots_append (a F : ℝ) (l : List (ℝ × ℝ)) (t q : ℝ) :
    knots a F (l ++ [(t, q)]) = knots a F l ++ [(t, ((knots a F l).getLastD (a, F)).2 + q * (t - (l.map Prod.fst).getLastD a))] := by
  induction l generalizing a F with
  | nil => simp [knots]
  | cons p l ih =>
    obtain ⟨t', q'⟩ := p
    simp only [List.cons_append, knots, ih, List.getLastD_cons, List.map_cons]

theorem heatFrom_append_zero (a : ℝ) (l : List (ℝ × ℝ)) (t x : ℝ) : heatFrom a (l ++ [(t, 0)]) x = heatFrom a l x := by
  induction l generalizing a with
  | nil => simp [heatFrom]
  | cons p l ih => obtain ⟨t', q'⟩ := p; simp only [List.cons_append, heatFrom, ih]

theorem Increasing.append {a : ℝ} {l : List ℝ} (h : Increasing a l) {t : ℝ} (ht : l.getLastD a < t) : Increasing a (l ++ [t]) := by
  induction l generalizing a with
  | nil => exact ⟨ht, trivial⟩
  | cons s l ih => exact ⟨h.1, ih h.2 (by rwa [List.getLastD_cons] at ht)⟩

theorem mapM_some {α β : Type*} (f : α → Option β) (g : α → β) (l : List α) (h : ∀ x ∈ l, f x = some (g x)) : l.mapM f = some (l.map g) := by
  induction l with
  | nil => rfl
  | cons x l ih =>
    rw [List.mapM_cons, h x List.mem_cons_self, ih fun y hy => h y (List.mem_cons_of_mem _ hy)]
    rfl

theorem slopes_cumsum (F : ℝ → ℝ) (c : ℝ) (l : List ℝ) :
    List.zipWith (· / ·) (List.zipWith (· - ·) ((c :: cumsumFrom c l).tail.map F) ((c :: cumsumFrom c l).dropLast.map F)) l = slopes F (c :: cumsumFrom c l) := by
  induction l generalizing c with
  | nil => simp [cumsumFrom, slopes]
  | cons v l ih =>
    simp only [cumsumFrom, slopes]
    rw [← ih (c + v)]
    simp only [List.tail_cons, List.map_cons, List.dropLast_cons_cons, List.zipWith_cons_cons, add_sub_cancel_left]

theorem last_zip_fst (ts Q : List ℝ) (hl : Q.length = ts.length) (a : ℝ) : ((List.zip ts Q).map Prod.fst).getLastD a = ts.getLastD a := by
  rw [List.map_fst_zip (by omega)]

theorem totalHeat_slopes (F : ℝ → ℝ) (a : ℝ) (l : List ℝ) (h : Increasing a l) : totalHeat (a :: l) (slopes F (a :: l)) = F (l.getLastD a) - F a := by
  induction l generalizing a with
  | nil => simp [totalHeat]
  | cons t l ih =>
    rw [slopes, totalHeat, ih t h.2, List.getLastD_cons, div_mul_cancel₀ _ (by linarith [h.1])]
    ring

theorem slopes_heat (C : ℝ) (F : ℝ → ℝ) (a : ℝ) (ts Q : List ℝ) (hl : Q.length = ts.length) (h : Increasing a ts)
    (hF : ∀ x, a ≤ x → F x = C + heatFrom a (List.zip ts Q) x) : slopes F (a :: ts) = Q := by
  induction ts generalizing a C Q with
  | nil => rw [List.length_eq_zero_iff.mp hl]; rfl
  | cons t ts ih =>
    match Q, hl with
    | q :: Q, hl =>
      have hl' : Q.length = ts.length := by simpa using hl
      have hz : Increasing t ((List.zip ts Q).map Prod.fst) := by rw [List.map_fst_zip (by omega)]; exact h.2
      have hq : ∀ x, t ≤ x → F x = (C + q * (t - a)) + heatFrom t (List.zip ts Q) x := fun x hx => by
        rw [hF x (h.1.le.trans hx), List.zip_cons_cons, heatFrom, min_eq_right hx, max_eq_right (by linarith [h.1])]; ring
      rw [slopes, ih (C + q * (t - a)) t Q hl' h.2 hq, hq t le_rfl, heatFrom_zero _ hz le_rfl, hF a le_rfl, List.zip_cons_cons, heatFrom_zero _ (show Increasing a (((t, q) :: List.zip ts Q).map Prod.fst) from ⟨h.1, hz⟩) le_rfl]
      congr 1
      have : t - a ≠ 0 := by linarith [h.1]
      field_simp
      ring

theorem slopes_congr {F G : ℝ → ℝ} (l : List ℝ) (h : ∀ x ∈ l, F x = G x) : slopes F l = slopes G l := by
  induction l with
  | nil => rfl
  | cons a l ih =>
    cases l with
    | nil => rfl
    | cons b l =>
      rw [slopes, slopes, h a List.mem_cons_self, h b (List.mem_cons_of_mem _ List.mem_cons_self), ih fun x hx => h x (List.mem_cons_of_mem _ hx)]

theorem slopes_length (F : ℝ → ℝ) (a : ℝ) (l : List ℝ) : (slopes F (a :: l)).length = l.length := by
  induction l generalizing a with
  | nil => rfl
  | cons t l ih => simp [slopes, ih]

theorem slopes_linear {c : ℝ} {F : ℝ → ℝ} (a : ℝ) (l : List ℝ) (h : Increasing a l) (hF : ∀ x ∈ a :: l, F x = c * x) : slopes F (a :: l) = List.replicate l.length c := by
  induction l generalizing a with
  | nil => rfl
  | cons t l ih =>
    rw [slopes, ih t h.2 fun x hx => hF x (List.mem_cons_of_mem _ hx), hF a List.mem_cons_self, hF t (List.mem_cons_of_mem _ List.mem_cons_self), ← mul_sub,
      mul_div_cancel_right₀ _ (by linarith [h.1] : t - a ≠ 0)]
    rfl

theorem cumsum_increasing (c : ℝ) (l : List ℝ) (h : ∀ v ∈ l, 0 < v) : Increasing c (cumsumFrom c l) := by
  induction l generalizing c with
  | nil => trivial
  | cons v l ih => exact ⟨by linarith [h v List.mem_cons_self], ih _ fun w hw => h w (List.mem_cons_of_mem _ hw)⟩

theorem diffsFrom_pos {a : ℝ} {l : List ℝ} (h : Increasing a l) : ∀ v ∈ diffsFrom a l, 0 < v := by
  induction l generalizing a with
  | nil => simp [diffsFrom]
  | cons t l ih =>
    intro v hv
    rcases List.mem_cons.mp hv with rfl | hv
    · linarith [h.1]
    · exact ih h.2 v hv

theorem heat_const (c a : ℝ) (l : List ℝ) (h : Increasing a l) {x : ℝ} (hx : a ≤ x) (hx' : x ≤ l.getLastD a) :
    heatFrom a (List.zip l (List.replicate l.length c)) x = c * (x - a) := by
  induction l generalizing a with
  | nil =>
    have : x = a := le_antisymm hx' hx
    simp [heatFrom, this]
  | cons t l ih =>
    rw [List.length_cons, List.replicate_succ, List.zip_cons_cons, heatFrom]
    rcases le_total x t with hc | hc
    · rw [heatFrom_zero _ (by rw [List.map_fst_zip (by simp)]; exact h.2) hc, min_eq_left hc, max_eq_right (by linarith)]; ring
    · rw [ih t h.2 hc (by rwa [List.getLastD_cons] at hx'), min_eq_right hc, max_eq_right (by linarith [h.1])]; ring

theorem heat_end (a : ℝ) (l Q : List ℝ) (hl : Q.length = l.length) (h : Increasing a l) {x : ℝ} (hx : l.getLastD a ≤ x) :
    heatFrom a (List.zip l Q) x = totalHeat (a :: l) Q := by
  induction l generalizing a Q with
  | nil => simp [heatFrom, totalHeat]
  | cons t l ih =>
    match Q, hl with
    | q :: Q, hl =>
      rw [List.getLastD_cons] at hx
      have ht : t ≤ x := ((h.2.le) t List.mem_cons_self).2.trans hx
      rw [List.zip_cons_cons, heatFrom, totalHeat, ih t Q (by simpa using hl) h.2 hx, min_eq_right ht, max_eq_right (by linarith [h.1])]

end Verif.Sol
