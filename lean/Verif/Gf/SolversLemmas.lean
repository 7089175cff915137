import Verif.Gf.SolversModel
import Verif.Gf.UniformProps
import Verif.Sol.EqUniform
import Verif.Sol.SimMixed

/-!
# Lemmas: sums over the segments of all boreholes
-/

noncomputable section

namespace Verif.Gf

open Bore FLS Sol Finset

/-! ### Sums -/

theorem list_range_sum (f : ℕ → ℝ) (n : ℕ) : ((List.range n).map f).sum = ∑ k ∈ range n, f k := by
  induction n with
  | zero => simp
  | succ n ih => rw [List.range_succ, List.map_append, List.sum_append, ih, Finset.sum_range_succ]; simp

theorem list_sum_swap {α : Type*} (l : List α) (s : Finset ℕ) (f : ℕ → α → ℝ) : ∑ a ∈ s, (l.map (f a)).sum = (l.map fun x => ∑ a ∈ s, f a x).sum := by
  induction l with
  | nil => simp
  | cons x l ih => simp only [List.map_cons, List.sum_cons, Finset.sum_add_distrib, ih]

theorem sum_blocks (S : Sim) (f : ℕ → ℝ) (N : ℕ) : ∑ r ∈ range (S.first N), f r = ∑ k ∈ range N, ∑ a ∈ range (S.ns k), f (a + S.first k) := by
  induction N with
  | zero => simp [Sim.first]
  | succ N ih =>
    rw [Sim.first_succ, Finset.sum_range_add, ih, Finset.sum_range_succ]
    congr 1
    exact Finset.sum_congr rfl fun a _ => by rw [add_comm]

/-- One number for every segment, in the order of the boreholes. -/
def blocks (S : Sim) (f : ℕ → ℕ → ℝ) (N : ℕ) : List ℝ := (List.range N).flatMap fun k => (List.range (S.ns k)).map fun a => f k a

theorem blocks_succ (S : Sim) (f : ℕ → ℕ → ℝ) (N : ℕ) : blocks S f (N + 1) = blocks S f N ++ (List.range (S.ns N)).map fun a => f N a := by
  unfold blocks
  rw [List.range_succ, List.flatMap_append]
  simp

theorem blocks_length (S : Sim) (f : ℕ → ℕ → ℝ) (N : ℕ) : (blocks S f N).length = S.first N := by
  induction N with
  | zero => simp [blocks, Sim.first]
  | succ N ih => rw [blocks_succ, List.length_append, ih, Sim.first_succ]; simp

theorem blocks_get (S : Sim) (f : ℕ → ℕ → ℝ) {N k a : ℕ} (hk : k < N) (ha : a < S.ns k) : (blocks S f N).getD (a + S.first k) 0 = f k a := by
  induction N with
  | zero => omega
  | succ N ih =>
    rw [blocks_succ]
    by_cases h : k < N
    · have hlt : a + S.first k < (blocks S f N).length := by
        rw [blocks_length]
        have := S.first_mono (k := k + 1) (l := N) (by omega)
        rw [S.first_succ] at this
        omega
      rw [List.getD_append _ _ _ _ hlt, ih h]
    · obtain rfl : k = N := by omega
      rw [List.getD_append_right _ _ _ _ (by rw [blocks_length]; omega), blocks_length]
      simp [ha]

/-- The value of the g-function from the response factors of all segments. -/
theorem uniformOf_values (S : Sim) (f : ℕ → ℕ → ℝ) {F : ℝ → Option (ℕ → ℕ → ℝ)} {M : ℝ → ℕ → ℕ → ℝ} (hM : ∀ t, F t = some (M t)) {time : List ℝ} (hs : time.Pairwise (· ≤ ·)) (thr : ℝ) :
    ∃ g, uniformOf (blocks S f S.N) F time thr = some g ∧ g.length = time.length ∧ ∀ (p : ℕ) (t : ℝ), time[p]? = some t → g[p]? = some (
      let G := fun t => (∑ l ∈ range S.N, ∑ b ∈ range (S.ns l), f l b * ∑ k ∈ range S.N, ∑ a ∈ range (S.ns k), M t (b + S.first l) (a + S.first k)) /
        ∑ l ∈ range S.N, ∑ b ∈ range (S.ns l), f l b
      if t ≤ thr then G thr * t / thr else G t) := by
  obtain ⟨len, hlen⟩ : ∃ len, len = blocks S f S.N := ⟨_, rfl⟩
  have hl : len.length = S.first S.N := by rw [hlen, blocks_length]
  have hfin : ∀ φ : ℕ → ℝ, ∑ i : Fin len.length, φ i = ∑ k ∈ range S.N, ∑ a ∈ range (S.ns k), φ (a + S.first k) := fun φ => by
    rw [Fin.sum_univ_eq_sum_range, hl, sum_blocks]
  have hu := uhtr_average (fun i : Fin len.length => len[i]) (resp := fun tl i j => tl.map fun t => ((F t).getD fun _ _ => 0) i j) (F := fun i j t => ((F t).getD fun _ _ => 0) i j)
    (fun _ _ _ => rfl) hs thr
  have hG : ∀ t, (∑ i : Fin len.length, len[i] * ∑ j : Fin len.length, ((F t).getD fun _ _ => 0) i j) / (∑ i : Fin len.length, len[i]) =
      (∑ l ∈ range S.N, ∑ b ∈ range (S.ns l), f l b * ∑ k ∈ range S.N, ∑ a ∈ range (S.ns k), M t (b + S.first l) (a + S.first k)) / ∑ l ∈ range S.N, ∑ b ∈ range (S.ns l), f l b := by
    intro t
    have e0 : ∀ i : Fin len.length, len[i] = len.getD i 0 := fun i => by simp
    have e1 : ∑ i : Fin len.length, len[i] = ∑ l ∈ range S.N, ∑ b ∈ range (S.ns l), f l b := by
      rw [Finset.sum_congr rfl fun i _ => e0 i, hfin fun i => len.getD i 0]
      refine Finset.sum_congr rfl fun l hl' => Finset.sum_congr rfl fun b hb => ?_
      rw [hlen, blocks_get S f (Finset.mem_range.mp hl') (Finset.mem_range.mp hb)]
    rw [e1]
    congr 1
    rw [hM t, Option.getD_some]
    rw [Finset.sum_congr rfl fun i _ => by rw [e0 i, hfin fun j => M t i j], hfin fun i => len.getD i 0 * ∑ k ∈ range S.N, ∑ a ∈ range (S.ns k), M t i (a + S.first k)]
    refine Finset.sum_congr rfl fun l hl' => Finset.sum_congr rfl fun b hb => ?_
    rw [hlen, blocks_get S f (Finset.mem_range.mp hl') (Finset.mem_range.mp hb)]
  rw [← hlen]
  refine ⟨_, ?_, hu.1, ?_⟩
  · unfold uniformOf
    rw [if_pos fun t _ => by rw [hM t]; rfl]
  · intro p t ht
    rw [hu.2 p t ht, hG, hG]

/-- Means over the same positive weights of values that differ by at most `C` differ by at most `C`. -/
theorem mean_close (S : Sim) {w x y : ℕ → ℕ → ℝ} {C : ℝ} (hw : ∀ l < S.N, ∀ b < S.ns l, 0 ≤ w l b) (hpos : 0 < ∑ l ∈ range S.N, ∑ b ∈ range (S.ns l), w l b)
    (h : ∀ l < S.N, ∀ b < S.ns l, |x l b - y l b| ≤ C) :
    |(∑ l ∈ range S.N, ∑ b ∈ range (S.ns l), w l b * x l b) / (∑ l ∈ range S.N, ∑ b ∈ range (S.ns l), w l b) -
      (∑ l ∈ range S.N, ∑ b ∈ range (S.ns l), w l b * y l b) / ∑ l ∈ range S.N, ∑ b ∈ range (S.ns l), w l b| ≤ C := by
  rw [← sub_div, abs_div, abs_of_pos hpos, div_le_iff₀ hpos, ← Finset.sum_sub_distrib, Finset.mul_sum]
  refine (Finset.abs_sum_le_sum_abs _ _).trans (Finset.sum_le_sum fun l hl => ?_)
  rw [← Finset.sum_sub_distrib, Finset.mul_sum]
  refine (Finset.abs_sum_le_sum_abs _ _).trans (Finset.sum_le_sum fun b hb => ?_)
  have hwb := hw l (Finset.mem_range.mp hl) b (Finset.mem_range.mp hb)
  rw [← mul_sub, abs_mul, abs_of_nonneg hwb, mul_comm]
  exact mul_le_mul_of_nonneg_right (h l (Finset.mem_range.mp hl) b (Finset.mem_range.mp hb)) hwb

/-! ### Segments of one borehole -/

theorem segments_pieces {b : Borehole} (ht : b.tilt = 0) (φ : ℝ → ℝ → ℝ) (a : ℝ) (r : List ℝ) :
    (segsFrom b a r).map (fun s => φ s.H s.D) = (pieces (b.D + a * b.H) (r.map (· * b.H))).map fun p => φ p.2 p.1 := by
  induction r generalizing a with
  | nil => rfl
  | cons ρ r ih =>
    simp only [segsFrom, List.map_cons, pieces]
    rw [ih, show b.D + (a + ρ) * b.H = b.D + a * b.H + ρ * b.H by ring]
    simp [Borehole.segmentAt, Borehole.new, ht]

theorem seg_sum (S : Sim) {k : ℕ} (ht : (S.bore k).tilt = 0) (hl : (S.rs k).length = S.ns k) (φ : ℝ → ℝ → ℝ) :
    ∑ a ∈ range (S.ns k), φ (S.seg k a).H (S.seg k a).D = ((pieces (S.bore k).D ((S.rs k).map (· * (S.bore k).H))).map fun p => φ p.2 p.1).sum := by
  have h := segments_pieces ht φ 0 (S.rs k)
  rw [zero_mul, add_zero, ← segments_eq] at h
  rw [← h, ← list_range_sum]
  congr 1
  apply List.ext_getElem
  · simp [segments_length, hl]
  · intro i h1 h2
    have hi : i < ((S.bore k).segments (S.rs k)).length := by simpa using h2
    simp only [List.getElem_map, List.getElem_range]
    unfold Sim.seg
    rw [List.getD_eq_getElem _ _ hi]

/-- A discretization: for every borehole, positive ratios that add up to one. -/
structure SimDivided (S : Sim) : Prop where
  tilt : ∀ k < S.N, (S.bore k).tilt = 0
  H : ∀ k < S.N, 0 < (S.bore k).H
  D : ∀ k < S.N, 0 ≤ (S.bore k).D
  ratios : ∀ k < S.N, (S.rs k).length = S.ns k
  pos : ∀ k < S.N, ∀ ρ ∈ S.rs k, 0 < ρ
  sum : ∀ k < S.N, (S.rs k).sum = 1

theorem SimDivided.lens {S : Sim} (h : SimDivided S) {k : ℕ} (hk : k < S.N) : (∀ l ∈ (S.rs k).map (· * (S.bore k).H), 0 < l) ∧ ((S.rs k).map (· * (S.bore k).H)).sum = (S.bore k).H := by
  refine ⟨fun l hl => ?_, ratios_sum _ (h.sum k hk)⟩
  obtain ⟨ρ, hρ, rfl⟩ := List.mem_map.mp hl
  exact mul_pos (h.pos k hk ρ hρ) (h.H k hk)

/-- The responses to the segments of a borehole add up to the response to the borehole. -/
theorem sources_sum {S : Sim} (h : SimDivided S) (t alpha : ℝ) {k : ℕ} (hk : k < S.N) {d H2 : ℝ} (hd : 0 < d) (hH : 0 < H2) (D2 : ℝ) :
    ∑ a ∈ range (S.ns k), fls t alpha ⟨d, (S.seg k a).H, (S.seg k a).D, H2, D2⟩ true true = fls t alpha ⟨d, (S.bore k).H, (S.bore k).D, H2, D2⟩ true true := by
  rw [seg_sum S (h.tilt k hk) (h.ratios k hk) fun H D => fls t alpha ⟨d, H, D, H2, D2⟩ true true]
  exact (source_segments t alpha (g := ⟨d, (S.bore k).H, (S.bore k).D, H2, D2⟩) ⟨hd, (h.H k hk).le, hH⟩ true true _ (fun l hl => ((h.lens hk).1 l hl).le) (h.lens hk).2).symm

/-- The responses of the segments of a borehole, weighted by length, add up to that of the borehole. -/
theorem receivers_sum {S : Sim} (h : SimDivided S) (t alpha : ℝ) {l : ℕ} (hl : l < S.N) {d H1 : ℝ} (hd : 0 < d) (hH : 0 ≤ H1) (D1 : ℝ) :
    ∑ b ∈ range (S.ns l), (S.seg l b).H * fls t alpha ⟨d, H1, D1, (S.seg l b).H, (S.seg l b).D⟩ true true = (S.bore l).H * fls t alpha ⟨d, H1, D1, (S.bore l).H, (S.bore l).D⟩ true true := by
  rw [seg_sum S (h.tilt l hl) (h.ratios l hl) fun H D => H * fls t alpha ⟨d, H1, D1, H, D⟩ true true]
  rw [receiver_segments t alpha (g := ⟨d, H1, D1, (S.bore l).H, (S.bore l).D⟩) ⟨hd, hH, h.H l hl⟩ true true _ (h.lens hl).1 (h.lens hl).2]
  simp only [Pair.withReceiver]
  rw [mul_div_cancel₀ _ (h.H l hl).ne']

theorem lengths_sum {S : Sim} (h : SimDivided S) {l : ℕ} (hl : l < S.N) : ∑ b ∈ range (S.ns l), (S.seg l b).H = (S.bore l).H := by
  rw [seg_sum S (h.tilt l hl) (h.ratios l hl) fun H _ => H]
  have key : ∀ (ls : List ℝ) (D : ℝ), ((pieces D ls).map fun p => p.2).sum = ls.sum := by
    intro ls
    induction ls with
    | nil => intro D; rfl
    | cons x ls ih => intro D; simp [pieces, ih]
  rw [key, (h.lens hl).2]

theorem seg_H_pos {S : Sim} (h : SimDivided S) {k a : ℕ} (hk : k < S.N) (ha : a < S.ns k) : 0 < (S.seg k a).H := by
  have hm := S.seg_mem (k := k) (a := a) (by rw [h.ratios k hk]; exact ha)
  have : (S.seg k a).H ∈ ((S.bore k).segments (S.rs k)).map Borehole.H := List.mem_map_of_mem (List.mem_of_getElem? hm)
  rw [segments_eq, segsFrom_map_H] at this
  obtain ⟨ρ, hρ, e⟩ := List.mem_map.mp this
  rw [← e]
  exact mul_pos (h.pos k hk ρ hρ) (h.H k hk)

theorem seg_D_nonneg {S : Sim} (h : SimDivided S) {k a : ℕ} (hk : k < S.N) (ha : a < S.ns k) : 0 ≤ (S.seg k a).D := by
  have hm := List.mem_of_getElem? (S.seg_mem (k := k) (a := a) (by rw [h.ratios k hk]; exact ha))
  rw [segments_eq] at hm
  have key : ∀ (r : List ℝ) (x : ℝ), (∀ ρ ∈ r, 0 < ρ) → 0 ≤ x → ∀ s ∈ segsFrom (S.bore k) x r, 0 ≤ s.D := by
    intro r
    induction r with
    | nil => intro x _ _ s hs; simp [segsFrom] at hs
    | cons ρ r ih =>
      intro x hp hx s hs
      rcases List.mem_cons.mp hs with rfl | hs
      · have := h.D k hk
        have := h.H k hk
        simp only [Borehole.segmentAt, Borehole.new, h.tilt k hk, Real.cos_zero, mul_one]
        positivity
      · exact ih (x + ρ) (fun y hy => hp y (by simp [hy])) (by linarith [hp ρ (by simp)]) s hs
  exact key _ 0 (h.pos k hk) le_rfl _ hm

end Verif.Gf
