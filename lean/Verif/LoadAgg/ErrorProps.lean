import Mathlib.Algebra.Order.BigOperators.Group.Finset
import Mathlib.Algebra.Order.Field.Basic
import Verif.LoadAgg.LiuProps
import Verif.LoadAgg.MLAAProps

/-!
# Property C96: error of the load aggregation

The exact answer is the temporal superposition of the whole history.  A load aggregation
scheme superposes the history in which blocks of time steps are replaced by their means.
The difference is at most the spread of the loads, times, for every block, its number of
time steps and the variation of the increments of the response within the block.
-/

namespace Verif.LoadAgg

open Finset

/-- The increments of the step response: the response to a load of one time step. -/
def pulse {K : Type*} [Field K] (G : ℕ → K) (k : ℕ) : K := if k = 0 then G 0 else G k - G (k - 1)

/-- `V s b` bounds the variation of the increments `d` over the `b` time steps from `s` on. -/
def Varies {K : Type*} [Field K] [LinearOrder K] (d : ℕ → K) (V : ℕ → ℕ → K) : Prop :=
  ∀ s b k k', s ≤ k → k < s + b → s ≤ k' → k' < s + b → |d k - d k'| ≤ V s b

/-- The bound: every block of `b` time steps that starts at `s` counts `b` times its variation
(a block of one time step does not count). -/
def blockError {K : Type*} [Field K] (V : ℕ → ℕ → K) : ℕ → List ℕ → K
  | _, [] => 0
  | s, b :: bs => (if b ≤ 1 then 0 else b * V s b) + blockError V (s + b) bs

variable {K : Type*} [Field K] [LinearOrder K] [IsStrictOrderedRing K]

/-- `∑ h_k d_{o+k}`. -/
def dsum (d : ℕ → K) : ℕ → List K → K
  | _, [] => 0
  | o, v :: t => v * d o + dsum d (o + 1) t

omit [LinearOrder K] [IsStrictOrderedRing K] in
theorem dsum_append (d : ℕ → K) (o : ℕ) (a b : List K) :
    dsum d o (a ++ b) = dsum d o a + dsum d (o + a.length) b := by
  induction a generalizing o with
  | nil => simp [dsum]
  | cons v t ih => simp only [List.cons_append, dsum, ih, List.length_cons]; rw [show o + 1 + t.length = o + (t.length + 1) by omega]; ring

omit [LinearOrder K] [IsStrictOrderedRing K] in
theorem dsum_eq (d : ℕ → K) (o : ℕ) (h : List K) :
    dsum d o h = ∑ k ∈ range h.length, h.getD k 0 * d (o + k) := by
  induction h generalizing o with
  | nil => simp [dsum]
  | cons v t ih =>
    rw [List.length_cons, Finset.sum_range_succ', dsum, ih]
    simp only [List.getD_cons_succ, List.getD_cons_zero, add_zero]
    rw [add_comm]
    congr 1
    refine Finset.sum_congr rfl fun k _ => ?_
    rw [show o + 1 + k = o + (k + 1) by omega]

omit [LinearOrder K] [IsStrictOrderedRing K] in
theorem superpose_eq_dsum (G : ℕ → K) (h : List K) : superpose G h = dsum (pulse G) 0 h := by
  rw [superpose_eq_increments, dsum_eq]
  simp [pulse]

theorem mean_bounds (l : List K) (hl : l ≠ []) (lo hi : K) (hb : ∀ x ∈ l, lo ≤ x ∧ x ≤ hi) :
    lo ≤ mean l ∧ mean l ≤ hi := by
  have hpos : (0 : K) < (l.length : K) := by
    exact_mod_cast List.length_pos_iff.mpr hl
  have h1 : lo * l.length ≤ l.sum := by
    have := List.card_nsmul_le_sum l lo fun x hx => (hb x hx).1
    rwa [nsmul_eq_mul, mul_comm] at this
  have h2 : l.sum ≤ hi * l.length := by
    have := List.sum_le_card_nsmul l hi fun x hx => (hb x hx).2
    rwa [nsmul_eq_mul, mul_comm] at this
  exact ⟨by rw [mean, le_div_iff₀ hpos]; exact h1, by rw [mean, div_le_iff₀ hpos]; exact h2⟩

/-- Difference of a constant and a list, weighted by increments close to `c`. -/
theorem dsum_dev (d : ℕ → K) (o : ℕ) (l : List K) (m c ω D : K) (hω : ∀ x ∈ l, |m - x| ≤ ω)
    (hD : ∀ k < l.length, |d (o + k) - c| ≤ D) :
    |dsum d o (List.replicate l.length m) - dsum d o l - c * (l.length * m - l.sum)|
      ≤ l.length * (ω * D) := by
  induction l generalizing o with
  | nil => simp [dsum]
  | cons v t ih =>
    have h1 := ih (o + 1) (fun x hx => hω x (by simp [hx])) fun k hk => by
      have := hD (k + 1) (by simpa using hk)
      rwa [show o + (k + 1) = o + 1 + k by omega] at this
    have h2 : |(m - v) * (d o - c)| ≤ ω * D := by
      rw [abs_mul]
      have a := hω v (by simp)
      have b := hD 0 (by simp)
      exact mul_le_mul a (by simpa using b) (abs_nonneg _) ((abs_nonneg _).trans a)
    simp only [List.length_cons, List.replicate_succ, dsum, List.sum_cons]
    push_cast
    calc |m * d o + dsum d (o + 1) (List.replicate t.length m) - (v * d o + dsum d (o + 1) t)
            - c * (((t.length : K) + 1) * m - (v + t.sum))|
          = |(m - v) * (d o - c) + (dsum d (o + 1) (List.replicate t.length m) - dsum d (o + 1) t
              - c * ((t.length : K) * m - t.sum))| := by congr 1; ring
      _ ≤ ω * D + t.length * (ω * D) := (abs_add_le _ _).trans (add_le_add h2 h1)
      _ = ((t.length : K) + 1) * (ω * D) := by ring

theorem dsum_block (d : ℕ → K) (V : ℕ → ℕ → K) (hV : Varies d V) (o : ℕ) (l : List K) (lo hi : K)
    (hb : ∀ x ∈ l, lo ≤ x ∧ x ≤ hi) :
    |dsum d o (List.replicate l.length (mean l)) - dsum d o l|
      ≤ (hi - lo) * (if l.length ≤ 1 then 0 else l.length * V o l.length) := by
  rcases l with _ | ⟨v, t⟩
  · simp [dsum]
  rcases t with _ | ⟨w, t⟩
  · simp [dsum, mean]
  · obtain ⟨l, hl⟩ : ∃ l, l = v :: w :: t := ⟨_, rfl⟩
    rw [← hl] at hb ⊢
    have hne : l ≠ [] := by simp [hl]
    have hlen : ¬ l.length ≤ 1 := by simp [hl]
    obtain ⟨m1, m2⟩ := mean_bounds l hne lo hi hb
    have hm : (l.length : K) * mean l = l.sum := by
      have : (l.length : K) ≠ 0 := by
        have := List.length_pos_iff.mpr hne
        positivity
      rw [mean, mul_div_cancel₀ _ this]
    have key := dsum_dev d o l (mean l) (d o) (hi - lo) (V o l.length)
      (fun x hx => by
        obtain ⟨x1, x2⟩ := hb x hx
        rw [abs_le]; constructor <;> linarith)
      (fun k hk => hV o l.length (o + k) o (by omega) (by omega) le_rfl (by omega))
    rw [hm, sub_self, mul_zero, sub_zero] at key
    rw [if_neg hlen]
    calc _ ≤ _ := key
      _ = _ := by ring

/-- **C96**.  Replacing the consecutive blocks of a history by their means changes the temporal
superposition by at most the spread of the loads times the error of the blocks. -/
theorem averaged_error (G : ℕ → K) (V : ℕ → ℕ → K) (hV : Varies (pulse G) V) (bs : List ℕ)
    (h : List K) (hs : bs.sum = h.length) (lo hi : K) (hb : ∀ x ∈ h, lo ≤ x ∧ x ≤ hi) :
    |superpose G (averaged bs h) - superpose G h| ≤ (hi - lo) * blockError V 0 bs := by
  rw [superpose_eq_dsum, superpose_eq_dsum]
  generalize (0 : ℕ) = o
  induction bs generalizing h o with
  | nil => simp [averaged, blockError]
  | cons b bs ih =>
    simp only [List.sum_cons] at hs
    have htake : (h.take b).length = b := by simp; omega
    have e : dsum (pulse G) o h = dsum (pulse G) o (h.take b) + dsum (pulse G) (o + b) (h.drop b) := by
      conv_lhs => rw [← List.take_append_drop b h, dsum_append, htake]
    have h1 := dsum_block (pulse G) V hV o (h.take b) lo hi fun x hx => hb x (List.mem_of_mem_take hx)
    have h2 := ih (h.drop b) (by simp; omega) (fun x hx => hb x (List.mem_of_mem_drop hx)) (o + b)
    rw [htake] at h1
    simp only [averaged, blockError]
    rw [dsum_append, e, List.length_replicate, mul_add]
    calc _ = |(dsum (pulse G) o (List.replicate b (mean (h.take b))) - dsum (pulse G) o (h.take b))
            + (dsum (pulse G) (o + b) (averaged bs (h.drop b)) - dsum (pulse G) (o + b) (h.drop b))| := by
          congr 1; ring
      _ ≤ _ := (abs_add_le _ _).trans (add_le_add h1 h2)

/-- If the increments decrease from the time step `n0` on, the bound is the size of the largest
block times the increment at `n0`. -/
theorem blockError_antitone (d : ℕ → K) (n0 B : ℕ) (h0 : ∀ k, 0 ≤ d k)
    (hd : ∀ k k', n0 ≤ k → k ≤ k' → d k' ≤ d k) (ones bs : List ℕ) (h1 : ones = List.replicate n0 1)
    (hB : ∀ b ∈ bs, b ≤ B) (V : ℕ → ℕ → K) (hV : ∀ s b, n0 ≤ s → 0 < b → V s b = d s - d (s + b - 1)) :
    blockError V 0 (ones ++ bs) ≤ B * d n0 := by
  have aux : ∀ bs : List ℕ, (∀ b ∈ bs, b ≤ B) → ∀ s, n0 ≤ s → blockError V s bs ≤ B * d s := by
    intro bs
    induction bs with
    | nil =>
      intro _ s _
      simp only [blockError]
      exact mul_nonneg (by positivity) (h0 s)
    | cons b bs ih =>
      intro hB s hs
      have ih' := ih (fun b hb => hB b (by simp [hb])) (s + b) (by omega)
      simp only [blockError]
      have hbB : (b : K) ≤ B := by exact_mod_cast hB b (by simp)
      split_ifs with hb
      · rw [zero_add]
        exact ih'.trans (mul_le_mul_of_nonneg_left (hd s _ hs (by omega)) (by positivity))
      · rw [hV s b hs (by omega)]
        have a1 : d (s + b) ≤ d (s + b - 1) := hd _ _ (by omega) (by omega)
        have a2 : d (s + b - 1) ≤ d s := hd _ _ hs (by omega)
        have a3 : (b : K) * (d s - d (s + b - 1)) ≤ B * (d s - d (s + b - 1)) :=
          mul_le_mul_of_nonneg_right hbB (by linarith)
        have a4 : (B : K) * d (s + b) ≤ B * d (s + b - 1) :=
          mul_le_mul_of_nonneg_left a1 (by positivity)
        linarith
  have skip : ∀ n s, blockError V s (List.replicate n 1 ++ bs) = blockError V (s + n) bs := by
    intro n
    induction n with
    | zero => intro s; simp
    | succ n ih =>
      intro s
      rw [List.replicate_succ, List.cons_append, blockError, ih]
      simp [show s + 1 + n = s + (n + 1) by omega]
  rw [h1, skip, zero_add]
  exact aux bs hB n0 le_rfl

/-- A variation that is exact for increments decreasing from the time step `n0` on. -/
def drop (d : ℕ → K) (n0 s b : ℕ) : K :=
  if n0 ≤ s then d s - d (s + b - 1) else 2 * ∑ k ∈ range (s + b), |d k|

theorem drop_varies (d : ℕ → K) (n0 : ℕ) (hd : ∀ k k', n0 ≤ k → k ≤ k' → d k' ≤ d k) :
    Varies d (drop d n0) := by
  intro s b k k' h1 h2 h3 h4
  unfold drop
  split_ifs with h
  · have a1 := hd s k h h1
    have a2 := hd s k' h h3
    have a3 := hd k (s + b - 1) (by omega) (by omega)
    have a4 := hd k' (s + b - 1) (by omega) (by omega)
    rw [abs_le]; constructor <;> linarith
  · have b1 := Finset.single_le_sum (f := fun k => |d k|) (fun _ _ => abs_nonneg _)
      (Finset.mem_range.mpr h2)
    have b2 := Finset.single_le_sum (f := fun k => |d k|) (fun _ _ => abs_nonneg _)
      (Finset.mem_range.mpr h4)
    have := abs_sub (d k) (d k')
    linarith

/-- **C96** (decreasing increments).  If the latest `n0` time steps are not aggregated, no block
has more than `B` time steps, and the increments of the response are nonnegative and decrease
from `n0` on, the error is at most the spread of the loads times `B` times the increment at
`n0`. -/
theorem averaged_error_decreasing (G : ℕ → K) (n0 B : ℕ) (h0 : ∀ k, 0 ≤ pulse G k)
    (hd : ∀ k k', n0 ≤ k → k ≤ k' → pulse G k' ≤ pulse G k) (bs : List ℕ) (hB : ∀ b ∈ bs, b ≤ B)
    (h : List K) (hs : (List.replicate n0 1 ++ bs).sum = h.length) (lo hi : K) (hlh : lo ≤ hi)
    (hb : ∀ x ∈ h, lo ≤ x ∧ x ≤ hi) :
    |superpose G (averaged (List.replicate n0 1 ++ bs) h) - superpose G h|
      ≤ (hi - lo) * (B * pulse G n0) := by
  have h1 := averaged_error G _ (drop_varies (pulse G) n0 hd) _ h hs lo hi hb
  have h2 := blockError_antitone (pulse G) n0 B h0 hd _ bs rfl hB (drop (pulse G) n0)
    fun s b hs _ => by simp [drop, hs]
  exact h1.trans (mul_le_mul_of_nonneg_left h2 (by linarith))

theorem sum_error {S : Type*} [Fintype S] (a b e : S → K) (h : ∀ j, |a j - b j| ≤ e j) :
    |∑ j, a j - ∑ j, b j| ≤ ∑ j, e j := by
  rw [← Finset.sum_sub_distrib]
  exact (Finset.abs_sum_le_sum_abs _ _).trans (Finset.sum_le_sum fun j _ => h j)

namespace MLAA

variable {S : Type*} [Fintype S]

/-- **C96** (MLAA).  After every proper sequence of calls the response of the MLAA scheme differs
from the exact temporal superposition by at most the spread of the loads of every source times
the error of the blocks. -/
theorem mlaa_error (P : Params) (h0 : 1 ≤ P.N0) (h1 : 1 ≤ P.N1) (h2 : 1 ≤ P.N2) (h3 : 1 ≤ P.N3)
    (G : S → S → ℕ → K) (V : S → S → ℕ → ℕ → K) (hV : ∀ i j, Varies (pulse (G i j)) (V i j))
    (ops : List (Op K S)) (hp : Proper ops) (hne : ops ≠ []) (hN : (hist ops).length ≤ P.Nt)
    (lo hi : S → K) (hb : ∀ l ∈ hist ops, ∀ j, lo j ≤ l j ∧ l j ≤ hi j) :
    ∃ σ T, run P ops = some σ ∧ temporalSuperposition P G σ = some T ∧
      ∀ i, |T i - ∑ j, superpose (G i j) ((hist ops).map fun l => l j)|
        ≤ ∑ j, (hi j - lo j) * blockError (V i j) 0 (blockSizes P (hist ops).length) := by
  obtain ⟨σ, hr⟩ := Option.isSome_iff_exists.mp ((mlaa_run_isSome_iff P h0 ops hp).mpr hN)
  refine ⟨σ, _, hr, mlaa_response P h0 h1 h2 h3 G ops hp hne σ hr, fun i => ?_⟩
  refine sum_error _ _ _ fun j => averaged_error _ _ (hV i j) _ _ ?_ _ _ ?_
  · rw [blockSizes_sum]; simp
  · intro x hx
    obtain ⟨l, hl, rfl⟩ := List.mem_map.mp hx
    exact hb l hl j

/-- **C96** (MLAA, decreasing increments).  With more than `N0` time steps, of which at most `B`
are in one block. -/
theorem mlaa_error_decreasing (P : Params) (h0 : 1 ≤ P.N0) (h1 : 1 ≤ P.N1) (h2 : 1 ≤ P.N2)
    (h3 : 1 ≤ P.N3) (G : S → S → ℕ → K) (hG : ∀ i j k, 0 ≤ pulse (G i j) k)
    (hd : ∀ i j k k', P.N0 ≤ k → k ≤ k' → pulse (G i j) k' ≤ pulse (G i j) k)
    (ops : List (Op K S)) (hp : Proper ops) (hN : (hist ops).length ≤ P.Nt)
    (hlong : P.N0 < (hist ops).length) (B : ℕ)
    (hB : ∀ b ∈ blockSizes P (hist ops).length, b ≤ B)
    (lo hi : S → K) (hb : ∀ l ∈ hist ops, ∀ j, lo j ≤ l j ∧ l j ≤ hi j) :
    ∃ σ T, run P ops = some σ ∧ temporalSuperposition P G σ = some T ∧
      ∀ i, |T i - ∑ j, superpose (G i j) ((hist ops).map fun l => l j)|
        ≤ ∑ j, (hi j - lo j) * (B * pulse (G i j) P.N0) := by
  obtain ⟨σ, hr⟩ := Option.isSome_iff_exists.mp ((mlaa_run_isSome_iff P h0 ops hp).mpr hN)
  have hne : ops ≠ [] := by rintro rfl; simp [hist] at hlong
  refine ⟨σ, _, hr, mlaa_response P h0 h1 h2 h3 G ops hp hne σ hr, fun i => ?_⟩
  have hs := blockSizes_sum P (hist ops).length
  obtain ⟨bs, hbs⟩ : ∃ bs, blockSizes P (hist ops).length = List.replicate P.N0 1 ++ bs := by
    rw [blockSizes, min_eq_right (by omega)]
    exact ⟨_, rfl⟩
  rw [hbs] at hB hs
  rw [hbs]
  have hl : ∃ l, l ∈ hist ops := by
    cases h : hist ops with
    | nil => simp [h] at hlong
    | cons a t => exact ⟨a, by simp⟩
  obtain ⟨l0, hl0⟩ := hl
  refine sum_error _ _ _ fun j => averaged_error_decreasing _ _ B (hG i j) (hd i j) _
    (fun b hb => hB b (by simp [hb])) _ (by rw [hs]; simp) _ _
    ((hb l0 hl0 j).1.trans (hb l0 hl0 j).2) ?_
  intro x hx
  obtain ⟨l, hl, rfl⟩ := List.mem_map.mp hx
  exact hb l hl j

end MLAA

namespace Liu

variable {S : Type*} [Fintype S]

/-- **C96** (Liu).  The same for the Liu scheme; the blocks are its cells. -/
theorem liu_error (P : Params) (Nt Ng : ℕ) (hg : Good P) (h4 : P.N4Ok Nt)
    (G : S → S → ℕ → K) (V : S → S → ℕ → ℕ → K) (hV : ∀ i j, Varies (pulse (G i j)) (V i j))
    (ops : List (Op K S)) (hp : Proper ops) (hne : ops ≠ []) (hN : (hist ops).length ≤ Nt)
    (lo hi : S → K) (hb : ∀ l ∈ hist ops, ∀ j, lo j ≤ l j ∧ l j ≤ hi j) :
    ∃ σ, run P ops = some σ ∧
      ∀ i, |temporalSuperposition P Ng G σ i - ∑ j, superpose (G i j) ((hist ops).map fun l => l j)|
        ≤ ∑ j, (hi j - lo j) * blockError (V i j) 0 (sizes P σ) := by
  obtain ⟨σ, hr, h⟩ := liu_response P Nt Ng hg h4 G ops hp hne hN
  obtain ⟨σ', hr', hs, -⟩ := liu_partition P Nt hg h4 ops hp hN
  obtain rfl : σ = σ' := by rw [hr] at hr'; exact Option.some.inj hr'
  refine ⟨σ, hr, fun i => ?_⟩
  rw [h i]
  refine sum_error _ _ _ fun j => averaged_error _ _ (hV i j) _ _ ?_ _ _ ?_
  · rw [hs]; simp
  · intro x hx
    obtain ⟨l, hl, rfl⟩ := List.mem_map.mp hx
    exact hb l hl j

/-- **C96** (Liu, decreasing increments).  A cell has at most `N1 N2 N3` time steps, and at least
the latest `W1` time steps are not aggregated. -/
theorem liu_error_decreasing (P : Params) (Nt Ng : ℕ) (hg : Good P) (h4 : P.N4Ok Nt)
    (G : S → S → ℕ → K) (hG : ∀ i j k, 0 ≤ pulse (G i j) k)
    (hd : ∀ i j k k', P.W1 ≤ k → k ≤ k' → pulse (G i j) k' ≤ pulse (G i j) k)
    (ops : List (Op K S)) (hp : Proper ops) (hne : ops ≠ []) (hN : (hist ops).length ≤ Nt)
    (lo hi : S → K) (hb : ∀ l ∈ hist ops, ∀ j, lo j ≤ l j ∧ l j ≤ hi j) :
    ∃ σ, run P ops = some σ ∧
      ∀ i, |temporalSuperposition P Ng G σ i - ∑ j, superpose (G i j) ((hist ops).map fun l => l j)|
        ≤ ∑ j, (hi j - lo j) * (↑(P.N1 * P.N2 * P.N3) * pulse (G i j) P.W1) := by
  obtain ⟨σ, hr, h⟩ := liu_response P Nt Ng hg h4 G ops hp hne hN
  obtain ⟨σ', hr', hs, -, -, -, -, hw, -⟩ := liu_partition P Nt hg h4 ops hp hN
  obtain rfl : σ = σ' := by rw [hr] at hr'; exact Option.some.inj hr'
  refine ⟨σ, hr, fun i => ?_⟩
  rw [h i]
  have hlen : 0 < (hist ops).length := by
    rw [List.length_pos_iff]; exact hist_ne_nil hne
  obtain ⟨l0, hl0⟩ := List.exists_mem_of_length_pos hlen
  refine sum_error _ _ _ fun j => ?_
  have hlh := (hb l0 hl0 j).1.trans (hb l0 hl0 j).2
  have hbx : ∀ x ∈ (hist ops).map fun l => l j, lo j ≤ x ∧ x ≤ hi j := by
    intro x hx
    obtain ⟨l, hl, rfl⟩ := List.mem_map.mp hx
    exact hb l hl j
  obtain ⟨g1, g2, g3, -, -, -⟩ := hg
  rcases hw with hw | ⟨w1, w2, w3⟩
  · obtain ⟨m, hm⟩ := Nat.exists_eq_add_of_le hw
    have hsz : sizes P σ = List.replicate P.W1 1 ++ (List.replicate m 1
        ++ List.replicate σ.n1 P.N1 ++ List.replicate σ.n2 (P.N1 * P.N2)
        ++ List.replicate σ.n3 (P.N1 * P.N2 * P.N3)) := by
      simp only [sizes, hm, List.replicate_add, List.append_assoc]
    rw [hsz] at hs ⊢
    refine averaged_error_decreasing _ _ _ (hG i j) (hd i j) _ ?_ _ (by rw [hs]; simp) _ _ hlh hbx
    have p1 : 1 ≤ P.N1 * P.N2 := Nat.mul_pos g1 g2
    have q1 : P.N1 ≤ P.N1 * P.N2 := Nat.le_mul_of_pos_right _ g2
    have q2 : P.N1 * P.N2 ≤ P.N1 * P.N2 * P.N3 := Nat.le_mul_of_pos_right _ g3
    intro b hb
    simp only [List.mem_append, List.mem_replicate] at hb
    omega
  · have hsz : sizes P σ = List.replicate σ.n0 1 ++ [] := by simp [sizes, w1, w2, w3]
    have hs' : σ.n0 = (hist ops).length := by rw [hsz] at hs; simpa using hs
    rw [hsz, averaged_ones _ _ _ (by simp [hs'])]
    simp only [averaged]
    rw [List.take_append_drop, sub_self, abs_zero]
    have := hG i j P.W1
    exact mul_nonneg (by linarith) (mul_nonneg (by positivity) this)

end Liu

/-- Example: a response with decreasing increments `1, 1/2, 1/3, ...`; its increments satisfy the
hypotheses of the bounds for every starting time step. -/
def harm (k : ℕ) : ℚ := ∑ i ∈ range (k + 1), 1 / ((i : ℚ) + 1)

theorem pulse_harm (k : ℕ) : pulse harm k = 1 / ((k : ℚ) + 1) := by
  rcases k with _ | k
  · simp [pulse, harm]
  · rw [pulse, if_neg (by omega), harm, harm, Nat.add_sub_cancel, Finset.sum_range_succ _ (k + 1)]
    push_cast
    ring

theorem pulse_harm_decreasing (k k' : ℕ) (h : k ≤ k') : pulse harm k' ≤ pulse harm k := by
  rw [pulse_harm, pulse_harm]
  have : (k : ℚ) ≤ k' := by exact_mod_cast h
  exact one_div_le_one_div_of_le (by positivity) (by linarith)

/-- The bound is not vacuous: two loads 0 and 1 merged into one block of mean 1/2. -/
example : superpose harm (averaged [2] [0, 1]) - superpose harm [0, 1] = 1 / 4 ∧
    blockError (drop (pulse harm) 0) 0 [2] = 1 := by
  constructor
  · simp [superpose, averaged, mean, harm, Finset.sum_range_succ]; norm_num
  · simp only [blockError, drop, pulse_harm]; norm_num

example : ∃ σ T, MLAA.run ⟨8, 2, 1, 2, 1⟩ MLAA.exOps = some σ ∧
    MLAA.temporalSuperposition ⟨8, 2, 1, 2, 1⟩ (fun _ _ => harm) σ = some T ∧
    ∀ i, |T i - ∑ j, superpose harm ((hist MLAA.exOps).map fun l => l j)|
      ≤ ∑ _j : Unit, (6 - 1 : ℚ) * ((2 : ℕ) * pulse harm 2) :=
  MLAA.mlaa_error_decreasing ⟨8, 2, 1, 2, 1⟩ (by decide) (by decide) (by decide) (by decide)
    (fun _ _ => harm) (fun _ _ k => by rw [pulse_harm]; positivity)
    (fun _ _ k k' _ h => pulse_harm_decreasing k k' h) MLAA.exOps
    (by simp [MLAA.exOps, List.range_succ, Proper])
    (by simp [MLAA.exOps, List.range_succ, hist, histStep])
    (by simp [MLAA.exOps, List.range_succ, hist, histStep]) 2
    (by simp [MLAA.exOps, List.range_succ, hist, histStep, MLAA.blockSizes])
    (fun _ => 1) (fun _ => 6)
    (by simp [MLAA.exOps, List.range_succ, hist, histStep]; norm_num)

end Verif.LoadAgg
