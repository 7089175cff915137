import Verif.Sol.SolveProps
import Verif.Sol.QuotLemmas
import Mathlib.Data.List.TakeWhile

/-!
# Properties C146 and C147: later times, early times, repeated times

The solution for some times does not change when later times are appended (C147); times up to the threshold for linearization may be zero or repeated, a repeated time above it makes the linear
system with a uniform temperature singular (C146).
-/

noncomputable section

namespace Verif.Sol

open Matrix

variable {n : ℕ}

/-! ### Prefixes of the times -/

theorem interpGo_prefix (x : ℝ) (l₂ : List (ℝ × ℝ)) : ∀ (p : ℝ × ℝ) (q : ℝ × ℝ) (l₁ : List (ℝ × ℝ)), x ≤ (l₁.getLastD q).1 → interpGo x p (q :: l₁ ++ l₂) = interpGo x p (q :: l₁)
  | p, q, [], h => by
    cases l₂ with
    | nil => rfl
    | cons r l₂ =>
      have h' : x ≤ q.1 := h
      change (if x ≤ q.1 then line p q x else _) = line p q x
      rw [if_pos h']
  | p, q, r :: l₁, h => by
    have ih := interpGo_prefix x l₂ q r l₁ (by rwa [List.getLastD_cons] at h)
    change (if x ≤ q.1 then line p q x else interpGo x q (r :: l₁ ++ l₂)) = if x ≤ q.1 then line p q x else interpGo x q (r :: l₁)
    rw [ih]

theorem diffsFrom_append (a : ℝ) (l₁ l₂ : List ℝ) : ∃ r, diffsFrom a (l₁ ++ l₂) = diffsFrom a l₁ ++ r := by
  induction l₁ generalizing a with
  | nil => exact ⟨_, rfl⟩
  | cons t l₁ ih =>
    obtain ⟨r, hr⟩ := ih t
    exact ⟨r, by rw [List.cons_append, diffsFrom, hr]; rfl⟩

theorem diffs_prefix {l₁ l₂ : List ℝ} {p : ℕ} (hp : p < l₁.length) : (diffs (l₁ ++ l₂)).getD p 0 = (diffs l₁).getD p 0 := by
  cases l₁ with
  | nil => simp at hp
  | cons t l₁ =>
    obtain ⟨r, hr⟩ := diffsFrom_append t l₁ l₂
    rw [List.cons_append, diffs, hr, diffs, ← List.cons_append, List.getD_append _ _ _ _ (by simpa [diffsFrom_length] using hp)]

/-- The time steps lie between zero and the last time. -/
theorem diffs_range {l : List ℝ} (h0 : ∀ t ∈ l, 0 ≤ t) (hs : l.Pairwise (· ≤ ·)) {p : ℕ} (hp : p < l.length) : 0 ≤ (diffs l).getD p 0 ∧ (diffs l).getD p 0 ≤ l.getLastD 0 := by
  have key : ∀ (l : List ℝ) (a : ℝ), 0 ≤ a → (∀ t ∈ l, a ≤ t) → l.Pairwise (· ≤ ·) → ∀ p < l.length, 0 ≤ (diffsFrom a l).getD p 0 ∧ (diffsFrom a l).getD p 0 ≤ l.getLastD a := by
    intro l
    induction l with
    | nil => intro a _ _ _ p hp; simp at hp
    | cons t l ih =>
      intro a ha hl hs p hp
      have hat := hl t (by simp)
      have htl : t ≤ l.getLastD t := by
        rcases List.eq_nil_or_concat l with e | ⟨l', z, e⟩
        · rw [e]; exact le_rfl
        · rw [e]
          simp only [List.concat_eq_append, List.getLastD_eq_getLast?, List.getLast?_append, List.getLast?_singleton, Option.some_or, Option.getD_some]
          exact (List.pairwise_cons.mp hs).1 z (by rw [e]; simp)
      have e : (t :: l).getLastD a = l.getLastD t := List.getLastD_cons ..
      rw [e]
      cases p with
      | zero =>
        simp only [diffsFrom, List.getD_cons_zero]
        exact ⟨by linarith, by linarith⟩
      | succ p =>
        simp only [diffsFrom, List.getD_cons_succ]
        exact ih t (ha.trans hat) (List.pairwise_cons.mp hs).1 (List.pairwise_cons.mp hs).2 p (by simpa using hp)
  cases l with
  | nil => simp at hp
  | cons t l =>
    have h := key (t :: l) 0 le_rfl h0 hs p hp
    have e : diffs (t :: l) = diffsFrom 0 (t :: l) := by simp [diffs, diffsFrom]
    rw [e]
    exact h

theorem zip_getLastD {l l' : List ℝ} (hl : l.length = l'.length) (a b : ℝ) : ((List.zip l l').getLastD (a, b)).1 = l.getLastD a := by
  induction l generalizing l' a b with
  | nil => cases l' <;> simp_all
  | cons t l ih =>
    cases l' with
    | nil => simp at hl
    | cons v l' =>
      rw [List.zip_cons_cons, List.getLastD_cons, List.getLastD_cons]
      exact ih (by simpa using hl) t v

/-- Response factors at a time step inside of the first times. -/
theorem respAt_prefix {t₁ t₂ : List ℝ} (F : Fin n → Fin n → ℝ → ℝ) {x : ℝ} (h1 : t₁ ≠ []) (hx : x ≤ t₁.getLastD 0) (hx2 : x ≤ (t₁ ++ t₂).getLastD 0) :
    respAt (t₁ ++ t₂) (fun i j => (t₁ ++ t₂).map (F i j)) x = respAt t₁ (fun i j => t₁.map (F i j)) x := by
  have key : ∀ i j, interp (List.zip (0 :: (t₁ ++ t₂)) (0 :: (t₁ ++ t₂).map (F i j))) x = interp (List.zip (0 :: t₁) (0 :: t₁.map (F i j))) x := fun i j => by
    obtain ⟨a, l, rfl⟩ := List.exists_cons_of_ne_nil h1
    rw [List.zip_cons_cons, List.zip_cons_cons]
    unfold interp
    dsimp only
    have e1 : ((List.zip (a :: l) ((a :: l).map (F i j))).getLastD (0, 0)).1 = (a :: l).getLastD 0 := zip_getLastD (by simp) _ _
    have e2 : ((List.zip (a :: l ++ t₂) ((a :: l ++ t₂).map (F i j))).getLastD (0, 0)).1 = (a :: l ++ t₂).getLastD 0 := zip_getLastD (by simp) _ _
    rw [e1, e2]
    by_cases hx0 : (0 : ℝ) ≤ x
    · rw [if_pos ⟨hx0, hx2⟩, if_pos ⟨hx0, hx⟩, List.map_append, List.zip_append (by simp)]
      congr 1
      rw [List.map_cons, List.zip_cons_cons]
      refine interpGo_prefix x _ (0, 0) (a, F i j a) _ ?_
      rw [zip_getLastD (by simp)]
      rwa [List.getLastD_cons] at hx
    · rw [if_neg fun h => hx0 h.1, if_neg fun h => hx0 h.1]
  unfold respAt
  congr 1
  funext i
  congr 1
  funext j
  exact key i j

theorem superpose_prefix {t₁ t₂ : List ℝ} (F : Fin n → Fin n → ℝ → ℝ) {R : Fin n → List ℝ} (hR : ∀ j, (R j).length ≤ t₁.length) :
    superpose (fun i j => (t₁ ++ t₂).map (F i j)) R = superpose (fun i j => t₁.map (F i j)) R := by
  funext i
  unfold superpose
  rw [if_pos fun j => ?_, if_pos fun j => by simpa using hR j]
  · congr 1
    refine Finset.sum_congr rfl fun j _ => ?_
    beta_reduce
    rw [List.map_append, List.take_append_of_le_length (by simpa using hR j)]
  · have := hR j
    simp
    omega

theorem diffs_length (l : List ℝ) : (diffs l).length = l.length := by
  cases l with
  | nil => rfl
  | cons t l => simp [diffs, diffsFrom_length]

theorem mapM_some_length {α β : Type*} {f : α → Option β} {l : List α} {r : List β} (h : l.mapM f = some r) : r.length = l.length := by
  induction l generalizing r with
  | nil => simp at h; simp [h]
  | cons x l ih =>
    rw [List.mapM_cons] at h
    simp only [Option.bind_eq_bind, Option.bind_eq_some_iff, Option.pure_def, Option.some.injEq] at h
    obtain ⟨a, -, b, hb, rfl⟩ := h
    simp [ih hb]

theorem reconstruct_length {time Q R : List ℝ} (h : reconstruct time Q = some R) : R.length ≤ time.length := by
  unfold reconstruct at h
  split at h
  · simp at h
  · rename_i t0 ts
    split at h
    · simp at h
    · dsimp only at h
      split at h
      · rename_i a b ha hb
        rw [← Option.some.inj h]
        simp only [List.length_zipWith, List.length_reverse, diffs_length]
        omega
      · simp at h

/-- **C147** (one step).  The data of a step inside of the first times do not depend on the times that follow. -/
theorem stepData_prefix {t₁ t₂ : List ℝ} (F : Fin n → Fin n → ℝ → ℝ) (h0 : ∀ t ∈ t₁ ++ t₂, 0 ≤ t) (hs : (t₁ ++ t₂).Pairwise (· ≤ ·)) {p : ℕ} (hp : p < t₁.length) (past : List (Fin n → ℝ)) :
    stepData (t₁ ++ t₂) (fun i j => (t₁ ++ t₂).map (F i j)) past p = stepData t₁ (fun i j => t₁.map (F i j)) past p := by
  have hne : t₁ ≠ [] := fun h => by rw [h] at hp; simp at hp
  have hd1 := diffs_range (fun t ht => h0 t (by simp [ht])) (List.pairwise_append.mp hs).1 hp
  have hd2 := diffs_range h0 hs (p := p) (by rw [List.length_append]; omega)
  rw [diffs_prefix hp] at hd2
  unfold stepData
  rw [diffs_prefix hp, respAt_prefix F hne hd1.2 hd2.2, List.take_append_of_le_length (by omega)]
  split
  · rename_i h R hh hR
    rw [superpose_prefix F fun j => ?_]
    have := allSome_iff.mp hR j
    have := reconstruct_length this
    rw [List.length_take] at this
    omega
  · rfl

theorem ubwtLoop_prefix {t₁ t₂ : List ℝ} (F : Fin n → Fin n → ℝ → ℝ) (h0 : ∀ t ∈ t₁ ++ t₂, 0 ≤ t) (hs : (t₁ ++ t₂).Pairwise (· ≤ ·)) (H : Fin n → ℝ) {p : ℕ} (hp : p ≤ t₁.length) :
    ubwtLoop H (t₁ ++ t₂) (fun i j => (t₁ ++ t₂).map (F i j)) p = ubwtLoop H t₁ (fun i j => t₁.map (F i j)) p := by
  induction p with
  | zero => rfl
  | succ p ih =>
    rw [ubwtLoop, ubwtLoop, ih (by omega)]
    unfold ubwtStep
    simp only [stepData_prefix F h0 hs (show p < t₁.length by omega)]

theorem miftLoop_prefix {t₁ t₂ : List ℝ} (F : Fin n → Fin n → ℝ → ℝ) (h0 : ∀ t ∈ t₁ ++ t₂, 0 ≤ t) (hs : (t₁ ++ t₂).Pairwise (· ≤ ·)) (H : Fin n → ℝ) (f : Flow n) {p : ℕ} (hp : p ≤ t₁.length) :
    miftLoop H f (t₁ ++ t₂) (fun i j => (t₁ ++ t₂).map (F i j)) p = miftLoop H f t₁ (fun i j => t₁.map (F i j)) p := by
  induction p with
  | zero => rfl
  | succ p ih =>
    rw [miftLoop, miftLoop, ih (by omega)]
    unfold miftStep
    simp only [stepData_prefix F h0 hs (show p < t₁.length by omega)]


/-! ### The threshold -/

/-- The form of the linearization for all quantities. -/
def linearizeBy {α : Type*} (d : α) (φ : α → ℝ → α) (thr : ℝ) (time : List ℝ) (x : List α) : List α :=
  if pLong time thr > 0 then ((time.take (pLong time thr)).map (φ (x.headD d))) ++ x.tail else x

theorem linearize_by (time : List ℝ) (thr : ℝ) (x : List ℝ) : linearize time thr x = linearizeBy 0 (fun h t => h * t / thr) thr time x := rfl

theorem linearizeQ_by (time : List ℝ) (thr : ℝ) (x : List (Fin n → ℝ)) : linearizeQ time thr x = linearizeBy 0 (fun h t i => 1 + (h i - 1) * t / thr) thr time x := rfl

theorem pLong_append (a b : List ℝ) (thr : ℝ) : pLong (a ++ b) thr = if pLong a thr = a.length then a.length + pLong b thr else pLong a thr := by
  unfold pLong
  rw [List.takeWhile_append]
  split_ifs with h
  · rw [List.length_append]
  · rfl

/-- The times of the run for the first times are the first times of the run. -/
theorem timeLong_append {a : List ℝ} (ha : a ≠ []) (b : List ℝ) (thr : ℝ) : ∃ r, timeLong (a ++ b) thr = timeLong a thr ++ r := by
  have hl : 0 < a.length := List.length_pos_iff.mpr ha
  unfold timeLong
  rw [pLong_append]
  split_ifs with h1 h2 h3 h4 h5
  · refine ⟨b.drop (pLong b thr), ?_⟩
    rw [h1, List.drop_append, List.drop_length, List.drop_of_length_le (by omega), Nat.add_sub_cancel_left]
    rfl
  · omega
  · omega
  · omega
  · refine ⟨b, ?_⟩
    rw [List.drop_append_of_le_length (pLong_le a thr)]
    rfl
  · exact ⟨b, rfl⟩

theorem linearizeBy_append {α : Type*} (d : α) (φ : α → ℝ → α) (thr : ℝ) {a : List ℝ} (ha : a ≠ []) (b : List ℝ) {x : List α} (hx : x.length = (timeLong (a ++ b) thr).length) :
    (linearizeBy d φ thr (a ++ b) x).take a.length = linearizeBy d φ thr a (x.take (timeLong a thr).length) := by
  have hl : 0 < a.length := List.length_pos_iff.mpr ha
  unfold linearizeBy
  unfold timeLong at *
  rw [pLong_append] at *
  by_cases h1 : pLong a thr = a.length
  · rw [if_pos h1] at *
    rw [if_pos (by omega)] at *
    rw [if_pos (by omega), if_pos (by omega), h1, List.drop_length, List.take_length]
    obtain ⟨v, x, rfl⟩ := List.exists_cons_of_ne_nil (show x ≠ [] by rintro rfl; simp at hx)
    rw [List.take_append_of_le_length (by simp), ← List.map_take, List.take_take, Nat.min_eq_left (by omega), List.take_append_of_le_length le_rfl, List.take_length]
    simp
  · have h2 := pLong_le a thr
    rw [if_neg h1] at *
    by_cases h3 : pLong a thr > 0
    · rw [if_pos h3] at *
      rw [if_pos h3, if_pos h3]
      obtain ⟨v, x, rfl⟩ := List.exists_cons_of_ne_nil (show x ≠ [] by rintro rfl; simp at hx)
      rw [List.take_append_of_le_length h2, List.take_append, List.length_map, List.length_take, Nat.min_eq_left h2, List.take_of_length_le (by simp)]
      simp
    · rw [if_neg h3, if_neg h3, if_neg h3]

theorem timeLong_sorted {time : List ℝ} (h0 : ∀ t ∈ time, 0 ≤ t) (hs : time.Pairwise (· ≤ ·)) {thr : ℝ} (hthr : 0 ≤ thr) :
    (∀ t ∈ timeLong time thr, 0 ≤ t) ∧ (timeLong time thr).Pairwise (· ≤ ·) := by
  have hd : time.drop (pLong time thr) = time.dropWhile fun t => decide (t ≤ thr) := by
    unfold pLong
    conv_lhs => rw [← List.takeWhile_append_dropWhile (p := fun t => decide (t ≤ thr)) (l := time)]
    rw [List.drop_append_of_le_length (by rw [List.takeWhile_append_dropWhile]), List.takeWhile_append_dropWhile, List.drop_length]
    rfl
  unfold timeLong
  split_ifs with h
  · refine ⟨fun t ht => ?_, List.pairwise_cons.mpr ⟨fun t ht => ?_, hs.sublist (List.drop_sublist _ _)⟩⟩
    · rcases List.mem_cons.mp ht with rfl | ht
      · exact hthr
      · exact h0 t (List.mem_of_mem_drop ht)
    · rw [hd] at ht
      have hs' := hs.sublist (List.dropWhile_sublist fun t => decide (t ≤ thr))
      rcases e : time.dropWhile fun t => decide (t ≤ thr) with _ | ⟨q, l⟩
      · rw [e] at ht; simp at ht
      · have hq : ¬ q ≤ thr := by
          have := List.head_dropWhile_not (fun t => decide (t ≤ thr)) (l := time) (by rw [e]; simp)
          simp only [e] at this
          exact of_decide_eq_false this
        rw [e] at ht hs'
        rcases List.mem_cons.mp ht with rfl | ht
        · linarith
        · have := (List.pairwise_cons.mp hs').1 t ht
          linarith
  · exact ⟨h0, hs⟩

theorem ubwtLoop_take {H : Fin n → ℝ} {tl : List ℝ} {y : Fin n → Fin n → List ℝ} (m k : ℕ) {l : List ((Fin n → ℝ) × ℝ)} (h : ubwtLoop H tl y (m + k) = some l) :
    ubwtLoop H tl y m = some (l.take m) := by
  induction k generalizing l with
  | zero => rw [List.take_of_length_le (by rw [(ubwtLoop_spec h).1, Nat.add_zero])]; exact h
  | succ k ih =>
    obtain ⟨l0, x, h1, -, rfl⟩ := ubwtLoop_succ (p := m + k) h
    rw [ih h1, List.take_append_of_le_length (by rw [(ubwtLoop_spec h1).1]; omega)]

theorem miftLoop_take {H : Fin n → ℝ} {f : Flow n} {tl : List ℝ} {y : Fin n → Fin n → List ℝ} (m k : ℕ) {l : List (MiftState n)} (h : miftLoop H f tl y (m + k) = some l) :
    miftLoop H f tl y m = some (l.take m) := by
  induction k generalizing l with
  | zero => rw [List.take_of_length_le (by rw [(miftLoop_spec h).1, Nat.add_zero])]; exact h
  | succ k ih =>
    obtain ⟨l0, x, h1, -, rfl⟩ := miftLoop_succ (p := m + k) h
    rw [ih h1, List.take_append_of_le_length (by rw [(miftLoop_spec h1).1]; omega)]

/-! ### Appending times -/

/-- **C147** (uniform heat extraction rate).  Later times do not change the values at the times before. -/
theorem uhtr_append (F : Fin n → Fin n → ℝ → ℝ) {resp : List ℝ → Fin n → Fin n → List ℝ} (hF : Sampled F resp) (H : Fin n → ℝ) (a b : List ℝ) (thr : ℝ) :
    uhtr H resp a thr = (uhtr H resp (a ++ b) thr).take a.length := by
  by_cases ha : a = []
  · subst ha
    simp [uhtr, timeLong, pLong, linearize]
  obtain ⟨r, hr⟩ := timeLong_append ha b thr
  unfold uhtr
  dsimp only
  rw [linearize_by, linearize_by, linearizeBy_append _ _ _ ha b (by simp), ← List.map_take, List.take_range, hr, List.length_append, Nat.min_eq_left (by omega)]
  congr 1
  refine List.map_congr_left fun p hp => ?_
  have hp' : p < (timeLong a thr).length := by simpa using hp
  unfold uhtrG uhtrT
  simp only [hF _ _ _, List.map_append]
  congr 1
  refine Finset.sum_congr rfl fun i _ => ?_
  congr 1
  refine Finset.sum_congr rfl fun j _ => ?_
  rw [List.getD_append _ _ _ _ (by simpa using hp')]

/-- **C147** (uniform temperature).  For times in increasing order, later times change neither the g-function nor the heat extraction rates at the times before. -/
theorem ubwt_append (F : Fin n → Fin n → ℝ → ℝ) {resp : List ℝ → Fin n → Fin n → List ℝ} (hF : Sampled F resp) (H : Fin n → ℝ) {a b : List ℝ} (h0 : ∀ t ∈ a ++ b, 0 ≤ t)
    (hs : (a ++ b).Pairwise (· ≤ ·)) {thr : ℝ} (hthr : 0 ≤ thr) {g : List ℝ} {Qs : List (Fin n → ℝ)} (h : ubwt H resp (a ++ b) thr = some (g, Qs)) :
    ubwt H resp a thr = some (g.take a.length, Qs.take a.length) := by
  by_cases ha : a = []
  · subst ha
    simp [ubwt, timeLong, pLong, linearize, linearizeQ, ubwtLoop]
  obtain ⟨r, hr⟩ := timeLong_append ha b thr
  obtain ⟨hn, hp⟩ := timeLong_sorted h0 hs hthr
  have hy : ∀ tl, resp tl = fun i j => tl.map (F i j) := fun tl => by funext i j; exact hF tl i j
  unfold ubwt at h ⊢
  dsimp only at h ⊢
  rw [hy] at h ⊢
  split at h
  · simp at h
  · rename_i l hl
    obtain ⟨hg, hQ⟩ := Prod.mk.inj (Option.some.inj h)
    have hlen := (ubwtLoop_spec hl).1
    have hl' := hl
    rw [hr] at hl' hn hp
    rw [List.length_append] at hl'
    have h1 := ubwtLoop_take _ _ hl'
    rw [ubwtLoop_prefix F hn hp H le_rfl] at h1
    rw [h1]
    dsimp only
    rw [← hg, ← hQ, linearize_by, linearize_by, linearizeQ_by, linearizeQ_by, linearizeBy_append _ _ _ ha b (by simpa using hlen), linearizeBy_append _ _ _ ha b (by simpa using hlen),
      List.map_take, List.map_take]

/-- **C147** (mixed inlet temperature).  The same for the g-function, the heat extraction rates and the wall temperatures. -/
theorem mift_append (F : Fin n → Fin n → ℝ → ℝ) {resp : List ℝ → Fin n → Fin n → List ℝ} (hF : Sampled F resp) (H : Fin n → ℝ) (f : Flow n) {a b : List ℝ} (h0 : ∀ t ∈ a ++ b, 0 ≤ t)
    (hs : (a ++ b).Pairwise (· ≤ ·)) {thr : ℝ} (hthr : 0 ≤ thr) {g : List ℝ} {Qs : List (Fin n → ℝ)} {Ts : Fin n → List ℝ} (h : mift H f resp (a ++ b) thr = some (g, Qs, Ts)) :
    mift H f resp a thr = some (g.take a.length, Qs.take a.length, fun i => (Ts i).take a.length) := by
  by_cases ha : a = []
  · subst ha
    simp [mift, timeLong, pLong, linearize, linearizeQ, miftLoop]
  obtain ⟨r, hr⟩ := timeLong_append ha b thr
  obtain ⟨hn, hp⟩ := timeLong_sorted h0 hs hthr
  have hy : ∀ tl, resp tl = fun i j => tl.map (F i j) := fun tl => by funext i j; exact hF tl i j
  unfold mift at h ⊢
  dsimp only at h ⊢
  rw [hy] at h ⊢
  split at h
  · simp at h
  · rename_i l hl
    obtain ⟨hg, hQT⟩ := Prod.mk.inj (Option.some.inj h)
    obtain ⟨hQ, hT⟩ := Prod.mk.inj hQT
    have hlen := (miftLoop_spec hl).1
    have hl' := hl
    rw [hr] at hl' hn hp
    rw [List.length_append] at hl'
    have h1 := miftLoop_take _ _ hl'
    rw [miftLoop_prefix F hn hp H f le_rfl] at h1
    rw [h1]
    dsimp only
    rw [← hg, ← hQ, ← hT]
    simp only [linearize_by, linearizeQ_by]
    rw [linearizeBy_append _ _ _ ha b (by simpa using hlen), linearizeBy_append _ _ _ ha b (by simpa using hlen), List.map_take, List.map_take]
    congr 3
    funext i
    rw [linearizeBy_append _ _ _ ha b (by simpa using hlen), List.map_take]

/-! ### Repeated times -/

theorem respAt_zero {tl : List ℝ} {y : Fin n → Fin n → List ℝ} (h0 : ∀ t ∈ tl, 0 ≤ t) {h : Matrix (Fin n) (Fin n) ℝ} (e : respAt tl y 0 = some h) : h = 0 := by
  funext i j
  have := allSome_iff.mp (allSome_iff.mp e i) j
  rw [List.zip_cons_cons] at this
  unfold interp at this
  dsimp only at this
  split_ifs at this with hc
  rw [← Option.some.inj this]
  rcases ez : List.zip tl (y i j) with _ | ⟨q, _ | ⟨r, l⟩⟩
  · rfl
  · simp [interpGo, line]
  · have hq : 0 ≤ q.1 := h0 _ (List.of_mem_zip (show (q.1, q.2) ∈ List.zip tl (y i j) by rw [ez]; simp)).1
    change (if (0 : ℝ) ≤ q.1 then line (0, 0) q 0 else _) = 0
    rw [if_pos hq]
    simp [line]

theorem diffsFrom_getElem (a : ℝ) (l : List ℝ) {p : ℕ} {s t : ℝ} (h1 : l[p]? = some s) (h2 : l[p + 1]? = some t) : (diffsFrom a l).getD (p + 1) 0 = t - s := by
  induction l generalizing a p with
  | nil => simp at h1
  | cons b l ih =>
    cases p with
    | zero =>
      cases l with
      | nil => simp at h2
      | cons c l =>
        simp at h1 h2
        simp [diffsFrom, h1, h2]
    | succ p =>
      rw [diffsFrom, List.getD_cons_succ]
      exact ih b (by simpa using h1) (by simpa using h2)

/-- **C146** (repeated times).  With a uniform temperature and two or more segments, the solution raises when a time is given twice in the run (that is, above the threshold): the matrix of the
second of the two steps is singular. -/
theorem ubwt_repeated_raises (H : Fin n → ℝ) (hn : 2 ≤ n) (resp : List ℝ → Fin n → Fin n → List ℝ) {time : List ℝ} {thr : ℝ} (h0 : ∀ t ∈ timeLong time thr, 0 ≤ t) {p : ℕ} {t : ℝ}
    (h1 : (timeLong time thr)[p]? = some t) (h2 : (timeLong time thr)[p + 1]? = some t) : ubwt H resp time thr = none := by
  obtain ⟨tl, htl⟩ : ∃ tl, tl = timeLong time thr := ⟨_, rfl⟩
  unfold ubwt
  dsimp only
  rw [← htl] at h0 h1 h2 ⊢
  split
  · rfl
  · rename_i l hl
    exfalso
    obtain ⟨hlen, hst⟩ := ubwtLoop_spec hl
    have hp : p + 1 < tl.length := (List.getElem?_eq_some_iff.mp h2).1
    have hstep := hst (p + 1) _ (List.getElem?_eq_getElem (by omega))
    have hd : (diffs tl).getD (p + 1) 0 = 0 := by
      have : diffs tl = diffsFrom 0 tl := by cases tl <;> simp [diffs, diffsFrom]
      rw [this, diffsFrom_getElem 0 tl h1 h2, sub_self]
    unfold ubwtStep at hstep
    split at hstep
    · simp at hstep
    · rename_i h T0 hs
      unfold stepData at hs
      rw [hd] at hs
      split at hs
      · rename_i h' R hh hR
        split at hs
        · have e := (Prod.mk.inj (Option.some.inj hs)).1
          rw [e] at hh
          rw [respAt_zero h0 hh] at hstep
          have hdet : (ubwtA H 0).det = 0 := Matrix.det_zero_of_row_eq (i := Sum.inl ⟨0, by omega⟩) (j := Sum.inl ⟨1, by omega⟩) (by simp) (by
            funext c
            rcases c with c | c <;> simp [ubwtA])
          unfold linsolve at hstep
          rw [hdet, if_neg (by simp)] at hstep
          simp at hstep
        · simp at hs
      · simp at hs

/-! ### Early times -/

theorem pLong_early {early late : List ℝ} {thr : ℝ} (he : ∀ t ∈ early, t ≤ thr) (hl : ∀ t ∈ late, thr < t) : pLong (early ++ late) thr = early.length := by
  have h1 : pLong early thr = early.length := by
    unfold pLong
    rw [List.takeWhile_eq_self_iff.mpr fun t ht => by simpa using he t ht]
  have h2 : pLong late thr = 0 := by
    unfold pLong
    cases late with
    | nil => rfl
    | cons t l => rw [List.takeWhile_cons_of_neg (by simpa using hl t (by simp))]; rfl
  rw [pLong_append, if_pos h1, h2, Nat.add_zero]

theorem timeLong_early {early late : List ℝ} {thr : ℝ} (hne : early ≠ []) (he : ∀ t ∈ early, t ≤ thr) (hl : ∀ t ∈ late, thr < t) : timeLong (early ++ late) thr = thr :: late := by
  unfold timeLong
  rw [pLong_early he hl, if_pos (List.length_pos_iff.mpr hne), List.drop_left]

theorem linearizeBy_early {α : Type*} (d : α) (φ : α → ℝ → α) {early late : List ℝ} {thr : ℝ} (hne : early ≠ []) (he : ∀ t ∈ early, t ≤ thr) (hl : ∀ t ∈ late, thr < t) (x : List α) :
    linearizeBy d φ thr (early ++ late) x = early.map (φ (x.headD d)) ++ x.tail := by
  unfold linearizeBy
  rw [pLong_early he hl, if_pos (List.length_pos_iff.mpr hne), List.take_left]

/-- **C146** (uniform temperature, early times).  Times up to the threshold may be given in any number and order, with zero and repetitions: their values are proportional to the time, from the
value at the threshold alone, and the values at the times above the threshold are the same. -/
theorem ubwt_early (H : Fin n → ℝ) (resp : List ℝ → Fin n → Fin n → List ℝ) {early late : List ℝ} {thr : ℝ} (hthr : 0 < thr) (hne : early ≠ []) (he : ∀ t ∈ early, t ≤ thr)
    (hl : ∀ t ∈ late, thr < t) :
    ubwt H resp (early ++ late) thr = (ubwt H resp (thr :: late) thr).map fun o =>
      (early.map (fun t => o.1.headD 0 * t / thr) ++ o.1.tail, early.map (fun t i => 1 + (o.2.headD 0 i - 1) * t / thr) ++ o.2.tail) := by
  have e1 := timeLong_early hne he hl
  have e2 : timeLong (thr :: late) thr = thr :: late := timeLong_early (early := [thr]) (by simp) (by simp) hl
  unfold ubwt
  dsimp only
  rw [e1, e2]
  cases hloop : ubwtLoop H (thr :: late) (resp (thr :: late)) (thr :: late).length with
  | none => rfl
  | some l =>
    obtain ⟨x, l, rfl⟩ := List.exists_cons_of_ne_nil (show l ≠ [] by rintro rfl; simpa using (ubwtLoop_spec hloop).1)
    rw [Option.map_some]
    dsimp only
    rw [linearize_by, linearizeQ_by, linearize_by, linearizeQ_by, linearizeBy_early _ _ hne he hl, linearizeBy_early _ _ hne he hl]
    have h1 := linearizeBy_early (0 : ℝ) (fun h t => h * t / thr) (early := [thr]) (by simp) (by simp) hl (((x :: l)).map Prod.snd)
    have h2 := linearizeBy_early (0 : Fin n → ℝ) (fun h t i => 1 + (h i - 1) * t / thr) (early := [thr]) (by simp) (by simp) hl (((x :: l)).map Prod.fst)
    rw [List.singleton_append] at h1 h2
    rw [h1, h2]
    have e3 : x.2 * thr / thr = x.2 := by field_simp
    have e4 : ∀ i, 1 + (x.1 i - 1) * thr / thr = x.1 i := fun i => by field_simp; ring
    simp only [List.map_cons, List.headD_cons, List.tail_cons, List.map_nil, List.singleton_append, e3, e4]

/-- **C146** (mixed inlet temperature, early times). -/
theorem mift_early (H : Fin n → ℝ) (f : Flow n) (resp : List ℝ → Fin n → Fin n → List ℝ) {early late : List ℝ} {thr : ℝ} (hthr : 0 < thr) (hne : early ≠ []) (he : ∀ t ∈ early, t ≤ thr)
    (hl : ∀ t ∈ late, thr < t) :
    mift H f resp (early ++ late) thr = (mift H f resp (thr :: late) thr).map fun o =>
      (early.map (fun t => o.1.headD 0 * t / thr) ++ o.1.tail, early.map (fun t i => 1 + (o.2.1.headD 0 i - 1) * t / thr) ++ o.2.1.tail,
        fun i => early.map (fun t => (o.2.2 i).headD 0 * t / thr) ++ (o.2.2 i).tail) := by
  have e1 := timeLong_early hne he hl
  have e2 : timeLong (thr :: late) thr = thr :: late := timeLong_early (early := [thr]) (by simp) (by simp) hl
  unfold mift
  dsimp only
  rw [e1, e2]
  cases hloop : miftLoop H f (thr :: late) (resp (thr :: late)) (thr :: late).length with
  | none => rfl
  | some l =>
    obtain ⟨x, l, rfl⟩ := List.exists_cons_of_ne_nil (show l ≠ [] by rintro rfl; simpa using (miftLoop_spec hloop).1)
    rw [Option.map_some]
    simp only [linearize_by, linearizeQ_by]
    have h1 := fun x => linearizeBy_early (0 : ℝ) (fun h t => h * t / thr) (early := [thr]) (by simp) (by simp) hl x
    have h2 := linearizeBy_early (0 : Fin n → ℝ) (fun h t i => 1 + (h i - 1) * t / thr) (early := [thr]) (by simp) (by simp) hl (((x :: l)).map MiftState.Q)
    simp only [List.singleton_append] at h1 h2
    simp only [h1, h2, linearizeBy_early _ _ hne he hl]
    have e3 : ∀ v : ℝ, v * thr / thr = v := fun v => by field_simp
    have e4 : ∀ i, 1 + (x.Q i - 1) = x.Q i := fun i => by ring
    simp only [List.map_cons, List.headD_cons, List.tail_cons, List.map_nil, List.singleton_append, e3, e4]

end Verif.Sol
