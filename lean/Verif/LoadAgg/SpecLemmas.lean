import Verif.LoadAgg.Spec
import Verif.Tac

/-! # Lemmas on temporal superposition -/

set_option linter.unusedSectionVars false

namespace Verif.LoadAgg

open Finset

section ring
variable {K : Type*} [CommRing K]

theorem abel (G q : ℕ → K) (N : ℕ) :
    ∑ k ∈ range N, (q k - q (k + 1)) * G k + q N * (if N = 0 then 0 else G (N - 1))
      = ∑ k ∈ range N, q k * (if k = 0 then G 0 else G k - G (k - 1)) := by
  induction N with
  | zero => simp
  | succ N ih =>
    rw [sum_range_succ, sum_range_succ, ← ih]
    rcases Nat.eq_zero_or_pos N with rfl | hN
    · simp; ring
    · simp [Nat.pos_iff_ne_zero.mp hN]
      ring

/-- Increment form of the superposition. -/
theorem superpose_eq_increments (G : ℕ → K) (h : List K) :
    superpose G h
      = ∑ k ∈ range h.length, h.getD k 0 * (if k = 0 then G 0 else G k - G (k - 1)) := by
  have := abel G (fun k => h.getD k 0) h.length
  simp at this
  simpa [superpose] using this

/-- Recursive form of the superposition, with an index offset. -/
def sup (G : ℕ → K) : ℕ → List K → K
  | _, [] => 0
  | o, v :: t => (v - t.headD 0) * G o + sup G (o + 1) t

theorem sup_eq (G : ℕ → K) (o : ℕ) (h : List K) :
    sup G o h = ∑ k ∈ range h.length, (h.getD k 0 - h.getD (k + 1) 0) * G (o + k) := by
  induction h generalizing o with
  | nil => simp [sup]
  | cons v t ih =>
    rw [List.length_cons, Finset.sum_range_succ', sup, ih]
    have e : t.headD 0 = t.getD 0 0 := by cases t <;> rfl
    rw [e]
    simp only [List.getD_cons_succ, List.getD_cons_zero, add_zero, zero_add]
    rw [add_comm]
    congr 1
    exact Finset.sum_congr rfl fun k _ => by rw [show o + 1 + k = o + (k + 1) by omega]

theorem superpose_eq_sup (G : ℕ → K) (h : List K) : superpose G h = sup G 0 h := by
  simp [sup_eq, superpose]

theorem sup_replicate (G : ℕ → K) (o b : ℕ) (v : K) (t : List K) :
    sup G o (List.replicate (b + 1) v ++ t) = (v - t.headD 0) * G (o + b) + sup G (o + b + 1) t := by
  induction b generalizing o with
  | zero => simp [sup]
  | succ b ih =>
    rw [List.replicate_succ, List.cons_append, sup, ih]
    simp only [List.replicate_succ, List.cons_append, List.headD_cons, sub_self, zero_mul, zero_add]
    rw [show o + 1 + b = o + (b + 1) by omega]

/-- Value of the first block. -/
def headv (t : List (ℕ × K)) : K := (t.headD (0, 0)).2

/-- Response of a list of blocks (size, value), as aggregation codes compute it. -/
def br (G : ℕ → K) : ℕ → List (ℕ × K) → K
  | _, [] => 0
  | o, p :: t => (p.2 - headv t) * G (o + p.1 - 1) + br G (o + p.1) t

/-- History described by a list of blocks. -/
def expand : List (ℕ × K) → List K
  | [] => []
  | p :: t => List.replicate p.1 p.2 ++ expand t

theorem expand_append (s t : List (ℕ × K)) : expand (s ++ t) = expand s ++ expand t := by
  induction s with
  | nil => rfl
  | cons p s ih => simp [expand, ih]

theorem br_aux (G : ℕ → K) (o : ℕ) (ho : 1 ≤ o) (t : List (ℕ × K)) :
    br G o t - headv t * G (o - 1) = sup G o (expand t) - (expand t).headD 0 * G (o - 1) := by
  induction t generalizing o with
  | nil => simp [br, headv, expand, sup]
  | cons p t ih =>
    obtain ⟨b, v⟩ := p
    cases b with
    | zero =>
      have := ih o ho
      simp only [br, expand, List.replicate_zero, List.nil_append, add_zero]
      rw [show headv ((0, v) :: t) = v from rfl]
      linear_combination this
    | succ b =>
      have := ih (o + (b + 1)) (by omega)
      simp only [br, expand]
      rw [sup_replicate, show headv ((b + 1, v) :: t) = v from rfl]
      rw [show o + (b + 1) - 1 = o + b by omega] at *
      rw [show o + b + 1 = o + (b + 1) by omega]
      simp only [List.replicate_succ, List.cons_append, List.headD_cons]
      linear_combination this

/-- The block response is the superposition of the expanded history. Blocks of size
zero may occur anywhere but in front. -/
theorem br_eq (G : ℕ → K) (b : ℕ) (v : K) (t : List (ℕ × K)) :
    br G 0 ((b + 1, v) :: t) = superpose G (expand ((b + 1, v) :: t)) := by
  have := br_aux G (b + 1) (by omega) t
  rw [superpose_eq_sup]
  simp only [br, expand]
  rw [sup_replicate]
  simp only [zero_add, Nat.add_sub_cancel] at *
  linear_combination this

/-- Contribution of `n` blocks of equal size `b` in front of `t`. -/
theorem br_run (G : ℕ → K) (o b n : ℕ) (Q : ℕ → K) (t : List (ℕ × K)) :
    br G o ((List.range (n + 1)).map (fun i => (b, Q i)) ++ t)
      = ∑ i ∈ range n, (Q i - Q (i + 1)) * G (o + (i + 1) * b - 1)
        + (Q n - headv t) * G (o + (n + 1) * b - 1) + br G (o + (n + 1) * b) t := by
  induction n generalizing o Q with
  | zero => simp [br]
  | succ n ih =>
    rw [List.range_succ_eq_map]
    simp only [List.map_cons, List.map_map, List.cons_append, br]
    have := ih (o + b) (fun i => Q (i + 1))
    rw [show (List.map ((fun i => (b, Q i)) ∘ Nat.succ) (List.range (n + 1)))
      = (List.range (n + 1)).map (fun i => (b, Q (i + 1))) from rfl, this]
    rw [show headv ((List.range (n + 1)).map (fun i => (b, Q (i + 1))) ++ t) = Q 1 by
      rw [List.range_succ_eq_map]; rfl]
    rw [Finset.sum_range_succ' (fun i => (Q i - Q (i + 1)) * G (o + (i + 1) * b - 1))]
    simp only [zero_add, one_mul]
    rw [show o + b + (n + 1) * b = o + (n + 1 + 1) * b by ring]
    have e : ∀ i, o + b + (i + 1) * b = o + (i + 1 + 1) * b := fun i => by ring
    simp only [e]
    ring

end ring

section field
variable {K : Type*} [Field K]

/-- The blocks of the history `h` with given sizes, with their means. -/
def blk : List ℕ → List K → List (ℕ × K)
  | [], _ => []
  | b :: bs, h => (b, mean (h.take b)) :: blk bs (h.drop b)

theorem averaged_eq_expand (bs : List ℕ) (h : List K) (hl : h.length ≤ bs.sum) :
    averaged bs h = expand (blk bs h) := by
  induction bs generalizing h with
  | nil => simp at hl; simp [averaged, blk, expand, hl]
  | cons b bs ih =>
    simp only [averaged, blk, expand]
    rw [ih]
    simp at hl ⊢; omega

theorem averaged_length (bs : List ℕ) (h : List K) (hl : bs.sum = h.length) :
    (averaged bs h).length = h.length := by
  induction bs generalizing h with
  | nil => simp [averaged]
  | cons b bs ih =>
    simp only [List.sum_cons] at hl
    simp only [averaged, List.length_append, List.length_replicate]
    rw [ih _ (by simp; omega)]
    simp; omega

theorem averaged_sum [CharZero K] (bs : List ℕ) (h : List K) (hl : bs.sum = h.length) :
    (averaged bs h).sum = h.sum := by
  induction bs generalizing h with
  | nil => simp [averaged]
  | cons b bs ih =>
    simp only [List.sum_cons] at hl
    simp only [averaged, List.sum_append, List.sum_replicate, mean]
    rw [ih _ (by simp; omega), List.length_take, min_eq_left (by omega)]
    rcases Nat.eq_zero_or_pos b with rfl | hb
    · simp
    · have : (b : K) ≠ 0 := by exact_mod_cast hb.ne'
      rw [nsmul_eq_mul, mul_div_cancel₀ _ this, List.sum_take_add_sum_drop]

/-- Blocks of size one leave the history unchanged. -/
theorem averaged_ones (n : ℕ) (bs : List ℕ) (h : List K) (hl : n ≤ h.length) :
    averaged (List.replicate n 1 ++ bs) h = h.take n ++ averaged bs (h.drop n) := by
  induction n generalizing h with
  | zero => simp
  | succ n ih =>
    cases h with
    | nil => simp at hl
    | cons v t =>
      simp only [List.length_cons, Nat.add_le_add_iff_right] at hl
      simp only [List.replicate_succ, List.cons_append, averaged, List.take_succ_cons,
        List.drop_succ_cons, List.take_zero, List.drop_zero]
      rw [ih t hl]
      simp [mean]

/-- A constant history is not changed by averaging. -/
theorem averaged_const [CharZero K] (bs : List ℕ) (n : ℕ) (c : K) (hl : bs.sum = n) :
    averaged bs (List.replicate n c) = List.replicate n c := by
  induction bs generalizing n with
  | nil => simp [averaged]
  | cons b bs ih =>
    simp only [List.sum_cons] at hl
    simp only [averaged, List.take_replicate, List.drop_replicate, mean, List.sum_replicate,
      List.length_replicate]
    rw [ih (n - b) (by omega), min_eq_left (by omega)]
    rcases Nat.eq_zero_or_pos b with rfl | hb
    · simp
    · have : (b : K) ≠ 0 := by exact_mod_cast hb.ne'
      rw [nsmul_eq_mul, mul_div_cancel_left₀ _ this, ← List.replicate_add]
      congr 1; omega

/-- Superposition of a constant history is the load times the step response. -/
theorem superpose_const (G : ℕ → K) (n : ℕ) (c : K) :
    superpose G (List.replicate (n + 1) c) = c * G n := by
  have := sup_replicate G 0 n c []
  rw [superpose_eq_sup, ← List.append_nil (List.replicate (n + 1) c), this]
  simp [sup]

/-- Superposition with a response that is proportional to time depends on the total heat
only. -/
theorem superpose_linear (a : K) (h : List K) :
    superpose (fun k => a * ((k : K) + 1)) h = a * h.sum := by
  rw [superpose_eq_increments]
  have : ∀ k : ℕ, (if k = 0 then a * (((0 : ℕ) : K) + 1) else a * ((k : K) + 1)
      - a * (((k - 1 : ℕ) : K) + 1)) = a := by
    intro k
    split_ifs with hk
    · simp
    · obtain ⟨m, rfl⟩ := Nat.exists_eq_succ_of_ne_zero hk
      simp; ring
  simp only [this]
  rw [← Finset.sum_mul, mul_comm]
  congr 1
  induction h with
  | nil => simp
  | cons v t ih => rw [List.length_cons, Finset.sum_range_succ']; simp at *; rw [ih]; ring

end field

end Verif.LoadAgg
