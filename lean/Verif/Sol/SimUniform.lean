import Verif.Sol.SimProps
import Mathlib.Data.List.Sort

/-!
# Properties of the `Similarities` solver (C27): fields of identical boreholes, comparison to the `Detailed` solver
-/

noncomputable section

namespace Verif.Sol

open Bore Classical

namespace Sim

variable (S : Sim)

/-- The search of distances has a result for every group. -/
theorem dist_exists (hS : S.Valid) : ∃ dist, S.DistOk dist := by
  have key : ∀ g, ∃ r : List ℝ × (ℕ → ℕ), g ∈ S.groups.pairV → ∃ isort init, isort.Perm (List.range (g.map fun p => (S.bore p.1).distance (S.bore p.2)).length) ∧
      (isort.map fun p : ℕ => (g.map fun p => (S.bore p.1).distance (S.bore p.2)).getD p 0).Pairwise (· ≤ ·) ∧
      FindDistances S.disTol (g.map fun p => (S.bore p.1).distance (S.bore p.2)) isort init r.1 r.2 := by
    intro g
    by_cases hg : g ∈ S.groups.pairV
    · obtain ⟨all, hall⟩ : ∃ all, all = g.map fun p => (S.bore p.1).distance (S.bore p.2) := ⟨_, rfl⟩
      rw [← hall]
      have hN : 1 < S.N := by
        by_contra hN
        unfold groups at hg
        rw [if_neg hN] at hg
        simp at hg
      have hpos : ∀ x ∈ all, 0 < x := by
        intro x hx
        rw [hall] at hx
        obtain ⟨p, hp, rfl⟩ := List.mem_map.mp hx
        exact lt_of_lt_of_le (hS.rad _ (S.mem_pairV_bounds hN hg hp).1) (le_max_left _ _)
      let r : ℕ → ℕ → Prop := fun i j => all.getD i 0 ≤ all.getD j 0
      have : Std.Total r := ⟨fun i j => le_total _ _⟩
      have : IsTrans ℕ r := ⟨fun i j k h1 h2 => le_trans h1 h2⟩
      have hperm : ((List.range all.length).insertionSort r).Perm (List.range all.length) := List.perm_insertionSort r _
      have hsort : (((List.range all.length).insertionSort r).map fun p : ℕ => all.getD p 0).Pairwise (· ≤ ·) := by
        rw [List.pairwise_map]
        exact List.pairwise_insertionSort r _
      obtain ⟨ds, idx, -, h, -⟩ := find_distances_groups S.disTol hS.dis all hpos _ hperm hsort fun _ => 0
      exact ⟨(ds, idx), fun _ => ⟨_, _, hperm, hsort, h⟩⟩
    · exact ⟨([], fun _ => 0), fun h => absurd h hg⟩
  choose dist hd using key
  exact ⟨dist, fun g hg => hd g hg⟩

/-- Identical vertical boreholes with uniform segments, and a tolerance that separates the segments. -/
structure Identical (H D rb : ℝ) (n : ℕ) : Prop where
  size : 0 < S.N
  H_eq : ∀ k < S.N, (S.bore k).H = H
  D_eq : ∀ k < S.N, (S.bore k).D = D
  rb_eq : ∀ k < S.N, (S.bore k).rb = rb
  tilt_eq : ∀ k < S.N, (S.bore k).tilt = 0
  ns_eq : ∀ k < S.N, S.ns k = n
  rs_eq : ∀ k < S.N, S.rs k = uniformRatios n
  pos : 0 < H ∧ 0 ≤ D ∧ 0 < rb ∧ 0 < n
  tol_eq : 0 < S.tol ∧ S.tol * (2 * (H + D) + 1) ≤ H / n ∧ 1 / 10 ^ 30 < H / n
  disTol : 0 < S.disTol

/-- … and distances that are equal or differ by more than the tolerance. -/
structure UniformField (H D rb : ℝ) (n : ℕ) : Prop extends S.Identical H D rb n where
  dist : ∀ k < S.N, ∀ l < S.N, ∀ m < S.N, ∀ n < S.N, (S.bore k).distance (S.bore l) < (S.bore m).distance (S.bore n) →
    (1 + S.disTol) * (S.bore k).distance (S.bore l) ≤ (S.bore m).distance (S.bore n)

theorem segsFrom_replicate (b : Borehole) (ρ : ℝ) (n : ℕ) (z : ℝ) {a : ℕ} (ha : a < n) : (segsFrom b z (List.replicate n ρ))[a]? = some (b.segmentAt ((z + a * ρ) * b.H) ρ) := by
  induction n generalizing z a with
  | zero => omega
  | succ n ih =>
    rw [List.replicate_succ, segsFrom]
    cases a with
    | zero => simp
    | succ a =>
      rw [List.getElem?_cons_succ, ih (z + ρ) (by omega)]
      push_cast
      congr 3
      ring

theorem seg_uniform {k n a : ℕ} (hr : S.rs k = uniformRatios n) (ht : (S.bore k).tilt = 0) (ha : a < n) :
    (S.seg k a).H = (S.bore k).H / n ∧ (S.seg k a).D = (S.bore k).D + a * ((S.bore k).H / n) := by
  have h : ((S.bore k).segments (S.rs k))[a]? = some ((S.bore k).segmentAt ((0 + a * (1 / (n : ℝ))) * (S.bore k).H) (1 / (n : ℝ))) := by
    rw [segments_eq, hr]
    exact segsFrom_replicate _ _ _ _ ha
  unfold seg
  rw [List.getD_eq_getElem?_getD, h]
  simp only [Option.getD_some, Borehole.segmentAt, Borehole.new, ht, Real.cos_zero]
  constructor <;> ring

theorem int_zero {z : ℤ} {h : ℝ} (hh : 0 < h) (hz : |(z : ℝ) * h| < h) : z = 0 := by
  rw [abs_mul, abs_of_pos hh] at hz
  have : |(z : ℝ)| < 1 := by
    by_contra hc
    rw [not_lt] at hc
    nlinarith
  exact Int.abs_lt_one_iff.mp (by exact_mod_cast this)

theorem Identical.valid {H D rb : ℝ} {n : ℕ} (hU : S.Identical H D rb n) : S.Valid where
  size := hU.size
  vert := fun _ k hk => by simp [vertical, hU.tilt_eq k hk, tilted]
  segs := fun k hk => by rw [hU.ns_eq k hk]; exact hU.pos.2.2.2
  rad := fun k hk => by rw [hU.rb_eq k hk]; exact hU.pos.2.2.1
  dis := hU.disTol

theorem Identical.same {H D rb : ℝ} {n : ℕ} (hU : S.Identical H D rb n) : S.Same := by
  obtain ⟨hH, hD, -, hn⟩ := hU.pos
  obtain ⟨ht, hsep, hsmall⟩ := hU.tol_eq
  have hn' : (0 : ℝ) < n := by exact_mod_cast hn
  have hh : 0 < H / n := by positivity
  have hseg : ∀ k < S.N, ∀ a < n, (S.seg k a).H = H / n ∧ (S.seg k a).D = D + a * (H / n) := by
    intro k hk a ha
    have := S.seg_uniform (hU.rs_eq k hk) (hU.tilt_eq k hk) ha
    rwa [hU.H_eq k hk, hU.D_eq k hk] at this
  have hdims : ∀ k < S.N, ∀ m < S.N, S.SameDims k m := fun k hk m hm => ⟨by rw [hU.H_eq k hk, hU.H_eq m hm], by rw [hU.D_eq k hk, hU.D_eq m hm], by rw [hU.rs_eq k hk, hU.rs_eq m hm]⟩
  have hle : ∀ a : ℕ, a < n → (a : ℝ) * (H / n) ≤ H := by
    intro a ha
    have : (a : ℝ) ≤ n := by exact_mod_cast ha.le
    calc (a : ℝ) * (H / n) ≤ n * (H / n) := by gcongr
      _ = H := by field_simp
  refine ⟨hU.tilt_eq, fun k hk => by rw [hU.rb_eq k hk, hU.rb_eq 0 hU.size], fun k hk => by rw [hU.rs_eq k hk, hU.ns_eq k hk]; simp [uniformRatios], fun k hk a ha => ?_,
    fun k hk i hi _ => hdims k hk i hi, fun k hk l hl m hm n hn _ _ _ => ⟨hdims k hk m hm, hdims l hl n hn⟩, ?_, ?_⟩
  · rw [(hseg k hk a (hU.ns_eq k hk ▸ ha)).1]; exact hh
  · rintro i hi j hj ⟨p1, p2⟩ hp ⟨q1, q2⟩ hq ⟨⟨-, hdel⟩, -, hsum⟩
    rw [S.mem_segPairs] at hp hq
    simp only [hU.ns_eq i hi, hU.ns_eq j hj] at hp hq
    obtain ⟨a1, a2⟩ := hseg i hi p1 hp.1
    obtain ⟨b1, b2⟩ := hseg j hj p2 hp.2
    obtain ⟨c1, c2⟩ := hseg i hi q1 hq.1
    obtain ⟨d1, d2⟩ := hseg j hj q2 hq.2
    simp only [a1, a2, b1, b2, c2, d2] at hdel hsum
    have hp1 := hle p1 hp.1
    have hp2 := hle p2 hp.2
    have hp1' : 0 ≤ (p1 : ℝ) * (H / n) := by positivity
    have hp2' : 0 ≤ (p2 : ℝ) * (H / n) := by positivity
    have htiny : (0 : ℝ) < 1 / 10 ^ 30 ∧ (1 / 10 ^ 30 : ℝ) ≤ 1 := by norm_num
    have hS0 : ((p1 : ℤ) + p2 - q1 - q2 : ℤ) = 0 := by
      apply int_zero hh
      have hden : 0 < D + p2 * (H / n) + (D + p1 * (H / n)) + 1 / 10 ^ 30 := by linarith [htiny.1]
      rw [abs_div, abs_of_pos hden, div_lt_iff₀ hden] at hsum
      push_cast
      calc |((p1 : ℝ) + p2 - q1 - q2) * (H / n)| = |D + p2 * (H / n) + (D + p1 * (H / n)) - (D + q2 * (H / n) + (D + q1 * (H / n)))| := by congr 1; ring
        _ < S.tol * (D + p2 * (H / n) + (D + p1 * (H / n)) + 1 / 10 ^ 30) := hsum
        _ ≤ S.tol * (2 * (H + D) + 1) := by
          apply mul_le_mul_of_nonneg_left _ ht.le
          linarith [htiny.2]
        _ ≤ H / n := hsep
    have hSr : (p1 : ℝ) + p2 - q1 - q2 = 0 := by exact_mod_cast hS0
    refine ⟨by rw [a1, c1], by rw [b1, d1], by rw [a2, b2, c2, d2]; linear_combination (H / n) * hSr, ?_⟩
    simp only [a1, a2, b1, b2, c2, d2]
    rcases hdel with hdel | ⟨-, hdel⟩
    · left
      have hden : 0 < |D + p2 * (H / n) - (D + p1 * (H / n)) + 1 / 10 ^ 30| := by
        rw [abs_pos]
        intro h0
        have hz : ((p2 : ℤ) - p1 : ℤ) = 0 := by
          apply int_zero hh
          push_cast
          rw [show ((p2 : ℝ) - p1) * (H / n) = -(1 / 10 ^ 30) by linarith, abs_neg, abs_of_pos htiny.1]
          exact hsmall
        have hz' : (p2 : ℝ) - p1 = 0 := by exact_mod_cast hz
        have : (p2 : ℝ) * (H / n) = p1 * (H / n) := by rw [show (p2 : ℝ) = p1 by linarith]
        linarith [htiny.1]
      rw [div_lt_iff₀ hden] at hdel
      have hz : ((p2 : ℤ) - p1 - (q2 - q1) : ℤ) = 0 := by
        apply int_zero hh
        push_cast
        calc |((p2 : ℝ) - p1 - (q2 - q1)) * (H / n)| = |D + p2 * (H / n) - (D + p1 * (H / n)) - (D + q2 * (H / n) - (D + q1 * (H / n)))| := by congr 1; ring
          _ < S.tol * |D + p2 * (H / n) - (D + p1 * (H / n)) + 1 / 10 ^ 30| := hdel
          _ ≤ S.tol * (2 * (H + D) + 1) := by
            apply mul_le_mul_of_nonneg_left _ ht.le
            rw [abs_le]
            constructor <;> linarith [htiny.2, htiny.1]
          _ ≤ H / n := hsep
      have hz' : (p2 : ℝ) - p1 - (q2 - q1) = 0 := by exact_mod_cast hz
      linear_combination (H / n) * hz'
    · right
      refine ⟨trivial, ?_⟩
      have e1 : |D + p2 * (H / n) - (D + p1 * (H / n))| = ((|(p2 : ℤ) - p1| : ℤ) : ℝ) * (H / n) := by
        rw [show D + p2 * (H / n) - (D + p1 * (H / n)) = ((p2 : ℝ) - p1) * (H / n) by ring, abs_mul, abs_of_pos hh]
        push_cast
        rfl
      have e2 : |D + q2 * (H / n) - (D + q1 * (H / n))| = ((|(q2 : ℤ) - q1| : ℤ) : ℝ) * (H / n) := by
        rw [show D + q2 * (H / n) - (D + q1 * (H / n)) = ((q2 : ℝ) - q1) * (H / n) by ring, abs_mul, abs_of_pos hh]
        push_cast
        rfl
      have hden : 0 < |D + p2 * (H / n) - (D + p1 * (H / n))| + 1 / 10 ^ 30 := by linarith [abs_nonneg (D + p2 * (H / n) - (D + p1 * (H / n))), htiny.1]
      rw [abs_div, abs_of_pos hden, div_lt_iff₀ hden] at hdel
      have hz : (|(p2 : ℤ) - p1| - |(q2 : ℤ) - q1| : ℤ) = 0 := by
        apply int_zero hh
        calc |((|(p2 : ℤ) - p1| - |(q2 : ℤ) - q1| : ℤ) : ℝ) * (H / n)| = |(|D + p2 * (H / n) - (D + p1 * (H / n))| - |D + q2 * (H / n) - (D + q1 * (H / n))|)| := by
              rw [e1, e2]; congr 1; push_cast; ring
          _ < S.tol * (|D + p2 * (H / n) - (D + p1 * (H / n))| + 1 / 10 ^ 30) := hdel
          _ ≤ S.tol * (2 * (H + D) + 1) := by
            apply mul_le_mul_of_nonneg_left _ ht.le
            have : |D + p2 * (H / n) - (D + p1 * (H / n))| ≤ H := by rw [abs_le]; constructor <;> linarith
            linarith [htiny.2]
          _ ≤ H / n := hsep
      have hz' : |(p2 : ℤ) - p1| = |(q2 : ℤ) - q1| := by linarith
      rw [e1, e2, hz']
  · intro m hm k hk _ _ a ha b hb
    rw [(hseg m hm a (hU.ns_eq m hm ▸ ha)).1, (hseg k hk b (hU.ns_eq k hk ▸ hb)).1]

theorem UniformField.valid {H D rb : ℝ} {n : ℕ} (hU : S.UniformField H D rb n) : S.Valid := Identical.valid S hU.toIdentical

theorem UniformField.exact {H D rb : ℝ} {n : ℕ} (hU : S.UniformField H D rb n) : S.Exact := ⟨Identical.same S hU.toIdentical, hU.dist⟩

theorem first_exists {r k : ℕ} (h : r < S.first k) : ∃ l < k, ∃ a < S.ns l, r = a + S.first l := by
  induction k with
  | zero => simp [first] at h
  | succ k ih =>
    by_cases hr : r < S.first k
    · obtain ⟨l, hl, h⟩ := ih hr
      exact ⟨l, by omega, h⟩
    · rw [first_succ] at h
      exact ⟨k, by omega, r - S.first k, by omega, by omega⟩

/-- The response factors of the `Detailed` solver for vertical boreholes of the same radius. -/
theorem detailed_entries (t alpha : ℝ) (hS : S.Valid) (hE : S.Same) {K : Bool → Borehole → Borehole → ℝ} (hK : ∀ s r, K true s r = FLS.fls t alpha (FLS.pairOf s r) true true) :
    ∃ M, detailed K ((List.range S.N).map S.bore) ((List.range S.N).map S.ns) ((List.range S.N).map S.rs) = some M ∧
      ∀ k < S.N, ∀ l < S.N, ∀ a < S.ns k, ∀ b < S.ns l, M (b + S.first l) (a + S.first k) = FLS.fls t alpha (FLS.pairOf (S.seg k a) (S.seg l b)) true true := by
  have hcons : Consistent ((List.range S.N).map S.bore) ((List.range S.N).map S.ns) ((List.range S.N).map S.rs) := by
    refine ⟨by simp, ?_⟩
    rw [List.map_map]
    apply List.map_congr_left
    intro k hk
    exact hE.ratios k (List.mem_range.mp hk)
  have hget : ∀ {α : Type} (f : ℕ → α) k, k < S.N → ((List.range S.N).map f)[k]? = some (f k) := by
    intro α f k hk
    rw [List.getElem?_map, List.getElem?_range hk]
    rfl
  have hlt : ∀ {α : Type} (f : ℕ → α) k x, ((List.range S.N).map f)[k]? = some x → k < S.N ∧ x = f k := by
    intro α f k x h
    have hk := (List.getElem?_eq_some_iff.mp h).1
    simp at hk
    rw [hget f k hk] at h
    exact ⟨hk, (Option.some.inj h).symm⟩
  have hseg : ∀ k < S.N, ∀ a < S.ns k, IsSegment ((List.range S.N).map S.bore) ((List.range S.N).map S.rs) k a (S.seg k a) := fun k hk a ha =>
    ⟨S.bore k, S.rs k, hget _ k hk, hget _ k hk, S.seg_mem (by rw [hE.ratios k hk]; exact ha)⟩
  obtain ⟨M', hM', h2⟩ := detailed_vertical t alpha hK hcons
    (by
      intro r hr
      obtain ⟨k, hk, rfl⟩ := List.mem_map.mp hr
      have := hS.segs k (List.mem_range.mp hk)
      rw [← hE.ratios k (List.mem_range.mp hk)] at this
      exact List.ne_nil_of_length_pos this)
    (by
      intro b hb
      obtain ⟨k, hk, rfl⟩ := List.mem_map.mp hb
      rw [hE.tilt k (List.mem_range.mp hk)]
      simp [tilted])
    (rb := (S.bore 0).rb)
    (by
      intro b hb
      obtain ⟨k, hk, rfl⟩ := List.mem_map.mp hb
      exact hE.rad k (List.mem_range.mp hk))
    (by
      rintro k a s ⟨b, r, hb, hr, hs⟩
      obtain ⟨hk, rfl⟩ := hlt _ _ _ hb
      obtain ⟨-, rfl⟩ := hlt _ _ _ hr
      have ha := (List.getElem?_eq_some_iff.mp hs).1
      rw [segments_length] at ha
      rw [S.seg_mem ha] at hs
      rw [← Option.some.inj hs]
      exact (hE.len k hk a (by rw [← hE.ratios k hk]; exact ha)).ne')
  refine ⟨M', hM', fun k hk l hl a ha b hb => ?_⟩
  have hpos : ∀ k < S.N, ∀ a, position ((List.range S.N).map S.rs) k a = a + S.first k := by
    intro k hk a
    unfold position first
    rw [← List.map_take, List.take_range, min_eq_left hk.le, List.map_map, Nat.add_comm]
    congr 2
    apply List.map_congr_left
    intro i hi
    exact hE.ratios i (by have := List.mem_range.mp hi; omega)
  rw [← (h2 l b _ k a _ (hseg l hl b hb) (hseg k hk a ha)).1, hpos l hl, hpos k hk]

/-- **C27** (comparison).  When the similarities found are exact, the `Similarities` solver and the `Detailed` solver return the same response factors. -/
theorem similarities_eq_detailed (t alpha : ℝ) (hS : S.Valid) (hE : S.Exact) {dist : List (ℕ × ℕ) → List ℝ × (ℕ → ℕ)} (hdist : S.DistOk dist) {K : Bool → Borehole → Borehole → ℝ}
    (hK : ∀ s r, K true s r = FLS.fls t alpha (FLS.pairOf s r) true true) :
    ∃ M M', S.factors (fun g => FLS.fls t alpha g true true) dist = some M ∧
      detailed K ((List.range S.N).map S.bore) ((List.range S.N).map S.ns) ((List.range S.N).map S.rs) = some M' ∧
      ∀ r < S.first S.N, ∀ c < S.first S.N, M r c = M' r c := by
  obtain ⟨M, hM, h1⟩ := S.similarities_exact t alpha hS hE hdist
  obtain ⟨M', hM', h2⟩ := S.detailed_entries t alpha hS hE.toSame hK
  refine ⟨M, M', hM, hM', fun r hr c hc => ?_⟩
  obtain ⟨l, hl, b, hb, rfl⟩ := S.first_exists hr
  obtain ⟨k, hk, a, ha, rfl⟩ := S.first_exists hc
  rw [h1 k hk l hl a ha b hb, h2 k hk l hl a ha b hb]

/-- **C27** (partial).  For every field of identical vertical boreholes with uniform segments whose tolerance separates the segments and whose distances are equal or differ by more than
the tolerance, the `Similarities` solver returns the response factors of the `Detailed` solver. -/
theorem similarities_uniform_partial (t alpha : ℝ) {H D rb : ℝ} {n : ℕ} (hU : S.UniformField H D rb n) {dist : List (ℕ × ℕ) → List ℝ × (ℕ → ℕ)} (hdist : S.DistOk dist)
    {K : Bool → Borehole → Borehole → ℝ} (hK : ∀ s r, K true s r = FLS.fls t alpha (FLS.pairOf s r) true true) :
    ∃ M M', S.factors (fun g => FLS.fls t alpha g true true) dist = some M ∧
      detailed K ((List.range S.N).map S.bore) ((List.range S.N).map S.ns) ((List.range S.N).map S.rs) = some M' ∧
      ∀ r < S.first S.N, ∀ c < S.first S.N, M r c = M' r c :=
  S.similarities_eq_detailed t alpha (UniformField.valid S hU) (UniformField.exact S hU) hdist hK

/-- **C27** (comparison, error).  When the similarities found are exact apart from the distances, every response factor of the `Similarities` solver differs from that of the
`Detailed` solver by at most `-log (1 - disTol)`, at all positive times. -/
theorem similarities_near_detailed {t alpha : ℝ} (hα : 0 < alpha) (ht : 0 < t) (hS : S.Valid) (hE : S.Same) (hD : ∀ k < S.N, ∀ a < S.ns k, 0 ≤ (S.seg k a).D) (htol : S.disTol < 1)
    {dist : List (ℕ × ℕ) → List ℝ × (ℕ → ℕ)} (hdist : S.DistOk dist) {K : Bool → Borehole → Borehole → ℝ} (hK : ∀ s r, K true s r = FLS.fls t alpha (FLS.pairOf s r) true true) :
    ∃ M M', S.factors (fun g => FLS.fls t alpha g true true) dist = some M ∧
      detailed K ((List.range S.N).map S.bore) ((List.range S.N).map S.ns) ((List.range S.N).map S.rs) = some M' ∧
      ∀ r < S.first S.N, ∀ c < S.first S.N, |M r c - M' r c| ≤ Real.log (1 / (1 - S.disTol)) := by
  obtain ⟨M, hM, h1⟩ := S.similarities_error hα ht hS hE hD htol hdist
  obtain ⟨M', hM', h2⟩ := S.detailed_entries t alpha hS hE hK
  refine ⟨M, M', hM, hM', fun r hr c hc => ?_⟩
  obtain ⟨l, hl, b, hb, rfl⟩ := S.first_exists hr
  obtain ⟨k, hk, a, ha, rfl⟩ := S.first_exists hc
  rw [h2 k hk l hl a ha b hb]
  exact (h1 k hk l hl a ha b hb).1

/-- **C27** (identical boreholes, error).  For every field of identical vertical boreholes with uniform segments whose tolerance separates the segments, with any distances, every
response factor of the `Similarities` solver differs from that of the `Detailed` solver by at most `-log (1 - disTol)`, at all positive times. -/
theorem similarities_uniform_error {t alpha : ℝ} (hα : 0 < alpha) (ht : 0 < t) {H D rb : ℝ} {n : ℕ} (hU : S.Identical H D rb n) (htol : S.disTol < 1)
    {dist : List (ℕ × ℕ) → List ℝ × (ℕ → ℕ)} (hdist : S.DistOk dist) {K : Bool → Borehole → Borehole → ℝ} (hK : ∀ s r, K true s r = FLS.fls t alpha (FLS.pairOf s r) true true) :
    ∃ M M', S.factors (fun g => FLS.fls t alpha g true true) dist = some M ∧
      detailed K ((List.range S.N).map S.bore) ((List.range S.N).map S.ns) ((List.range S.N).map S.rs) = some M' ∧
      ∀ r < S.first S.N, ∀ c < S.first S.N, |M r c - M' r c| ≤ Real.log (1 / (1 - S.disTol)) :=
  S.similarities_near_detailed hα ht (Identical.valid S hU) (Identical.same S hU) (fun k hk a ha => by
    rw [(S.seg_uniform (hU.rs_eq k hk) (hU.tilt_eq k hk) (by rw [← hU.ns_eq k hk]; exact ha)).2, hU.H_eq k hk, hU.D_eq k hk]
    obtain ⟨hH, hD, -, -⟩ := hU.pos
    positivity) htol hdist hK

/-- Three boreholes of 150 m in a row, 12 segments each, default tolerances. -/
def row3 : Sim := ⟨3, fun k => ⟨150, 4, 3 / 40, 5 * k, 0, 0, 0⟩, fun _ => 12, fun _ => uniformRatios 12, 1 / 10 ^ 6, 1 / 100⟩

/-- Non-vacuity: the three boreholes satisfy the hypotheses. -/
theorem row3_uniform : row3.UniformField 150 4 (3 / 40) 12 := by
  have hd : ∀ k l : ℕ, (row3.bore k).distance (row3.bore l) = max (3 / 40) (5 * ((|(k : ℤ) - l| : ℤ) : ℝ)) := by
    intro k l
    unfold Borehole.distance row3
    congr 1
    have : ((5 * (k : ℝ) - 5 * l) ^ 2 + ((0 : ℝ) - 0) ^ 2) = (5 * ((|(k : ℤ) - l| : ℤ) : ℝ)) ^ 2 := by
      push_cast
      rw [mul_pow, sq_abs]
      ring
    rw [this, Real.sqrt_sq (by positivity)]
  refine ⟨⟨by simp [row3], fun _ _ => rfl, fun _ _ => rfl, fun _ _ => rfl, fun _ _ => rfl, fun _ _ => rfl, fun _ _ => rfl, by norm_num, by norm_num [row3], by norm_num [row3]⟩, ?_⟩
  intro k hk l hl m hm n hn h
  rw [hd, hd] at h ⊢
  simp only [row3] at hk hl hm hn ⊢
  interval_cases k <;> interval_cases l <;> interval_cases m <;> interval_cases n <;> first | (norm_num at h; done) | norm_num

example : ∃ dist, row3.DistOk dist := row3.dist_exists (UniformField.valid _ row3_uniform)

/-- Three boreholes whose distances 5 m and 5.02 m are merged by the tolerance. -/
def bent3 : Sim := ⟨3, fun k => ⟨150, 4, 3 / 40, if k = 2 then 1002 / 100 else 5 * k, 0, 0, 0⟩, fun _ => 12, fun _ => uniformRatios 12, 1 / 10 ^ 6, 1 / 100⟩

theorem bent3_identical : bent3.Identical 150 4 (3 / 40) 12 :=
  ⟨by simp [bent3], fun _ _ => rfl, fun _ _ => rfl, fun _ _ => rfl, fun _ _ => rfl, fun _ _ => rfl, fun _ _ => rfl, by norm_num, by norm_num [bent3], by norm_num [bent3]⟩

/-- The hypotheses of the error bound hold, and those of the exact comparison do not. -/
example (t : ℝ) (ht : 0 < t) : (∃ dist M M', bent3.DistOk dist ∧ bent3.factors (fun g => FLS.fls t (1 / 10 ^ 6) g true true) dist = some M ∧
    detailed (fun _ s r => FLS.fls t (1 / 10 ^ 6) (FLS.pairOf s r) true true) ((List.range 3).map bent3.bore) ((List.range 3).map bent3.ns) ((List.range 3).map bent3.rs) = some M' ∧
    |M 0 12 - M' 0 12| ≤ Real.log (1 / (1 - 1 / 100))) ∧ ¬ bent3.UniformField 150 4 (3 / 40) 12 := by
  constructor
  · obtain ⟨dist, hd⟩ := bent3.dist_exists (Identical.valid _ bent3_identical)
    obtain ⟨M, M', h1, h2, h3⟩ := bent3.similarities_uniform_error (t := t) (alpha := 1 / 10 ^ 6) (by norm_num) ht bent3_identical (by norm_num [bent3]) hd
      (K := fun _ s r => FLS.fls t (1 / 10 ^ 6) (FLS.pairOf s r) true true) fun _ _ => rfl
    have hf : bent3.first bent3.N = 36 := rfl
    exact ⟨dist, M, M', hd, h1, h2, h3 0 (by rw [hf]; norm_num) 12 (by rw [hf]; norm_num)⟩
  · intro h
    have hs : ∀ x : ℝ, 3 / 40 ≤ x → max (3 / 40) √(x ^ 2 + (0 - 0) ^ 2) = x := by
      intro x hx
      rw [sub_self, zero_pow two_ne_zero, add_zero, Real.sqrt_sq (by linarith), max_eq_right hx]
    have h1 : (bent3.bore 1).distance (bent3.bore 0) = 5 := by
      have := hs 5 (by norm_num)
      simpa [Borehole.distance, bent3] using this
    have h2 : (bent3.bore 2).distance (bent3.bore 1) = 502 / 100 := by
      have := hs (502 / 100) (by norm_num)
      rw [← this]
      simp only [Borehole.distance, bent3]
      norm_num
    have := h.dist 1 (by simp [bent3]) 0 (by simp [bent3]) 2 (by simp [bent3]) 1 (by simp [bent3]) (by rw [h1, h2]; norm_num)
    rw [h1, h2] at this
    norm_num [bent3] at this

end Sim

end Verif.Sol
