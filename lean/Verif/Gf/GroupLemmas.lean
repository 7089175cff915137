import Verif.Gf.SolversTemp
import Verif.Sol.QuotProps

/-!
# Lemmas: segments of fields whose boreholes are in groups
-/

noncomputable section

namespace Verif.Gf

open Bore FLS Sol Finset

variable {S S' : Sim} {γ : ℕ → ℕ} {n n' : ℕ}

theorem index_lt {S : Sim} {k a : ℕ} (hk : k < S.N) (ha : a < S.ns k) : a + S.first k < S.first S.N := by
  have := S.first_mono (k := k + 1) (l := S.N) hk
  rw [S.first_succ] at this
  omega

/-- The segment `a` of the borehole `k` is sent to the segment `a` of the borehole `γ k`. -/
def SegMap (S S' : Sim) (γ : ℕ → ℕ) (π : Fin n → Fin n') : Prop := ∀ k < S.N, ∀ a < S.ns k, ∀ h : a + S.first k < n, (π ⟨a + S.first k, h⟩).val = a + S'.first (γ k)

theorem segMap_exists (hn : n = S.first S.N) (hn' : n' = S'.first S'.N) (hγ : ∀ k < S.N, γ k < S'.N) (hns : ∀ k < S.N, S'.ns (γ k) = S.ns k) :
    ∃ π : Fin n → Fin n', SegMap S S' γ π := by
  have : ∀ r : Fin n, ∃ c : Fin n', ∀ k < S.N, ∀ a < S.ns k, r.val = a + S.first k → c.val = a + S'.first (γ k) := fun r => by
    obtain ⟨k, hk, a, ha, e⟩ := S.first_exists (k := S.N) (r := r.val) (by rw [← hn]; exact r.isLt)
    refine ⟨⟨a + S'.first (γ k), hn' ▸ index_lt (hγ k hk) (by rw [hns k hk]; exact ha)⟩, fun l hl b hb e' => ?_⟩
    obtain ⟨rfl, rfl⟩ := S.first_inj ha hb (e.symm.trans e')
    rfl
  choose π hπ using this
  exact ⟨π, fun k hk a ha h => hπ _ k hk a ha rfl⟩

/-- Sum over the segments of a group. -/
theorem fiber_sum (hn : n = S.first S.N) (hns : ∀ k < S.N, S'.ns (γ k) = S.ns k) {π : Fin n → Fin n'} (hπ : SegMap S S' γ π)
    {f : Fin n → ℝ} {φ : ℕ → ℕ → ℝ} (hφ : ∀ k < S.N, ∀ a < S.ns k, ∀ h : a + S.first k < n, f ⟨a + S.first k, h⟩ = φ k a) {d b : ℕ} (hb : b < S'.ns d) {c : Fin n'}
    (hc : c.val = b + S'.first d) : ∑ r with π r = c, f r = ∑ k ∈ range S.N with γ k = d, φ k b := by
  obtain ⟨g, hg⟩ : ∃ g : ℕ → ℝ, g = fun r => if h : r < n then (if π ⟨r, h⟩ = c then f ⟨r, h⟩ else 0) else 0 := ⟨_, rfl⟩
  have e1 : ∑ r with π r = c, f r = ∑ r : Fin n, g r := by
    rw [Finset.sum_filter]
    refine Finset.sum_congr rfl fun r _ => ?_
    rw [hg]
    simp
  rw [e1, Fin.sum_univ_eq_sum_range g n, hn, sum_blocks, Finset.sum_filter]
  refine Finset.sum_congr rfl fun k hk => ?_
  have hk := Finset.mem_range.mp hk
  have e2 : ∀ a ∈ range (S.ns k), g (a + S.first k) = if a = b then (if γ k = d then φ k b else 0) else 0 := fun a ha => by
    have ha := Finset.mem_range.mp ha
    have hlt : a + S.first k < n := hn ▸ index_lt hk ha
    rw [hg]
    dsimp only
    rw [dif_pos hlt]
    have hp := hπ k hk a ha hlt
    by_cases hc' : π ⟨a + S.first k, hlt⟩ = c
    · rw [hc', hc] at hp
      obtain ⟨e3, e4⟩ := S'.first_inj (by rw [hns k hk]; exact ha) hb hp.symm
      rw [if_pos hc', if_pos e4, if_pos e3, hφ k hk a ha hlt, e4]
    · rw [if_neg hc']
      by_cases h1 : a = b
      · by_cases h2 : γ k = d
        · exact absurd (Fin.ext (by rw [hp, hc, h1, h2])) hc'
        · rw [if_pos h1, if_neg h2]
      · rw [if_neg h1]
  rw [Finset.sum_congr rfl e2, Finset.sum_ite_eq']
  by_cases h2 : γ k = d
  · rw [if_pos h2, if_pos (Finset.mem_range.mpr (by rw [← hns k hk, h2]; exact hb))]
  · simp [if_neg h2]

/-- The list of the boreholes of a field, their numbers of segments and their ratios. -/
abbrev bores (S : Sim) : List Borehole := (List.range S.N).map S.bore
abbrev counts (S : Sim) : List ℕ := (List.range S.N).map S.ns
abbrev ratios (S : Sim) : List (List ℝ) := (List.range S.N).map S.rs

theorem bores_consistent (hr : ∀ k < S.N, (S.rs k).length = S.ns k) : Consistent (bores S) (counts S) (ratios S) := by
  refine ⟨by simp, ?_⟩
  rw [List.map_map]
  exact List.map_congr_left fun k hk => hr k (List.mem_range.mp hk)

theorem segments_count (S : Sim) (hr : ∀ k < S.N, (S.rs k).length = S.ns k) : (segmentList (bores S) (counts S) (ratios S)).length = S.first S.N := by
  rw [← sim_lengths_length, ← sim_segmentList S hr, List.length_map]

theorem segments_flat (S : Sim) (hr : ∀ k < S.N, (S.rs k).length = S.ns k) (N : ℕ) (hN : N ≤ S.N) {k a : ℕ} (hk : k < N) (ha : a < S.ns k) :
    ((List.range N).flatMap fun k => (S.bore k).segments (S.rs k))[a + S.first k]? = some (S.seg k a) := by
  have hlen : ∀ M ≤ S.N, ((List.range M).flatMap fun k => (S.bore k).segments (S.rs k)).length = S.first M := fun M hM => by
    induction M with
    | zero => simp [Sim.first]
    | succ M ih =>
      rw [List.range_succ, List.flatMap_append, List.length_append, ih (by omega), S.first_succ]
      simp only [List.flatMap_cons, List.flatMap_nil, List.append_nil]
      rw [segments_length, hr M hM]
  induction N with
  | zero => omega
  | succ N ih =>
    rw [List.range_succ, List.flatMap_append]
    by_cases h : k < N
    · have := S.first_mono (k := k + 1) (l := N) h
      rw [S.first_succ] at this
      rw [List.getElem?_append_left (by rw [hlen N (by omega)]; omega)]
      exact ih (by omega) h
    · obtain rfl : k = N := by omega
      rw [List.getElem?_append_right (by rw [hlen k (by omega)]; omega), hlen k (by omega), Nat.add_sub_cancel]
      simp only [List.flatMap_cons, List.flatMap_nil, List.append_nil]
      exact S.seg_mem (by rw [hr k hN]; exact ha)

theorem segments_get (S : Sim) (hr : ∀ k < S.N, (S.rs k).length = S.ns k) {k a : ℕ} (hk : k < S.N) (ha : a < S.ns k)
    (h : a + S.first k < (segmentList (bores S) (counts S) (ratios S)).length) : (segmentList (bores S) (counts S) (ratios S))[a + S.first k] = S.seg k a := by
  have e : segmentList (bores S) (counts S) (ratios S) = (List.range S.N).flatMap fun k => (S.bore k).segments (S.rs k) := by
    unfold segmentList
    rw [List.zip_map', List.zip_map', List.flatMap_map]
  have := segments_flat S hr S.N le_rfl hk ha
  rw [← e, List.getElem?_eq_getElem h] at this
  exact Option.some.inj this

/-- The conditions on a field of vertical boreholes divided into segments. -/
structure Fit (S : Sim) (rb : ℝ) : Prop where
  size : 0 < S.N
  tilt : ∀ k < S.N, (S.bore k).tilt = 0
  rad : 0 < rb ∧ ∀ k < S.N, (S.bore k).rb = rb
  H : ∀ k < S.N, 0 < (S.bore k).H
  D : ∀ k < S.N, 0 ≤ (S.bore k).D
  len : ∀ k < S.N, (S.rs k).length = S.ns k
  pos : ∀ k < S.N, ∀ ρ ∈ S.rs k, 0 < ρ
  sum : ∀ k < S.N, (S.rs k).sum = 1

theorem Fit.upright {rb : ℝ} (h : Fit S rb) : Upright rb (bores S) := by
  have hmem : ∀ b ∈ bores S, ∃ k < S.N, b = S.bore k := fun b hb => by
    obtain ⟨k, hk, rfl⟩ := List.mem_map.mp hb
    exact ⟨k, List.mem_range.mp hk, rfl⟩
  refine ⟨?_, fun b hb => ?_, h.rad.1, fun b hb => ?_, fun b hb => ?_, fun b hb => ?_⟩
  · have := h.size
    simp
    omega
  all_goals obtain ⟨k, hk, rfl⟩ := hmem b hb
  · exact h.tilt k hk
  · exact h.rad.2 k hk
  · exact h.H k hk
  · exact h.D k hk

theorem Fit.splits {rb : ℝ} (h : Fit S rb) : Splits (bores S) (counts S) (ratios S) := by
  have hmem : ∀ r ∈ ratios S, ∃ k < S.N, r = S.rs k := fun r hr => by
    obtain ⟨k, hk, rfl⟩ := List.mem_map.mp hr
    exact ⟨k, List.mem_range.mp hk, rfl⟩
  refine ⟨bores_consistent h.len, fun r hr => ?_, fun r hr => ?_⟩
  all_goals obtain ⟨k, hk, rfl⟩ := hmem r hr
  · exact h.pos k hk
  · exact h.sum k hk

theorem Fit.response {rb : ℝ} (h : Fit S rb) (alpha t : ℝ) {k l a b : ℕ} (hk : k < S.N) (hl : l < S.N) (ha : a < S.ns k) (hb : b < S.ns l)
    (h1 : a + S.first k < (segmentList (bores S) (counts S) (ratios S)).length) (h2 : b + S.first l < (segmentList (bores S) (counts S) (ratios S)).length) :
    segmentResponse alpha (bores S) (counts S) (ratios S) ⟨a + S.first k, h1⟩ ⟨b + S.first l, h2⟩ t = fls t alpha (pairOf (S.seg l b) (S.seg k a)) true true := by
  unfold segmentResponse
  have e1 := segments_get S h.len hk ha h1
  have e2 := segments_get S h.len hl hb h2
  show fls t alpha (pairOf (segmentList (bores S) (counts S) (ratios S))[b + S.first l] (segmentList (bores S) (counts S) (ratios S))[a + S.first k]) true true = _
  rw [e1, e2]

theorem Fit.lengthAt {rb : ℝ} (h : Fit S rb) {k a : ℕ} (hk : k < S.N) (ha : a < S.ns k) (h1 : a + S.first k < (segmentList (bores S) (counts S) (ratios S)).length) :
    segmentLengths (bores S) (counts S) (ratios S) ⟨a + S.first k, h1⟩ = (S.seg k a).H := by
  unfold segmentLengths
  show (segmentList (bores S) (counts S) (ratios S))[a + S.first k].H = _
  rw [segments_get S h.len hk ha h1]

end Verif.Gf
