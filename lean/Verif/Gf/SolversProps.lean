import Verif.Gf.SolversLemmas

/-!
# The three solvers give the same g-function for a uniform heat extraction rate (C102)
-/

noncomputable section

namespace Verif.Gf

open Bore FLS Sol Finset

/-- The g-function of a field for a uniform heat extraction rate, linear in time up to the threshold. -/
def uniformValue (alpha : ℝ) (bs : List Borehole) (thr t : ℝ) : ℝ := if t ≤ thr then fieldResponse alpha bs thr * t / thr else fieldResponse alpha bs t

/-! ### Similarities -/

theorem log_nonneg_tol {tol : ℝ} (h0 : 0 ≤ tol) (h1 : tol < 1) : 0 ≤ Real.log (1 / (1 - tol)) := Real.log_nonneg (by rw [le_div_iff₀ (by linarith)]; linarith)

/-- The sum of the responses to the segments of a borehole, each at its own distance within the tolerance, differs from the response to the borehole by at most `-log (1 - tol)`. -/
theorem sources_close {S : Sim} (h : SimDivided S) {t alpha : ℝ} (hα : 0 < alpha) (ht : 0 < t) {k : ℕ} (hk : k < S.N) {x tol H2 D2 : ℝ} (hx : 0 < x) (h0 : 0 ≤ tol) (h1 : tol < 1) (hH : 0 < H2)
    (hD : 0 ≤ D2) {d : ℕ → ℝ} (hd : ∀ a < S.ns k, |d a - x| ≤ tol * x) :
    |∑ a ∈ range (S.ns k), fls t alpha ⟨d a, (S.seg k a).H, (S.seg k a).D, H2, D2⟩ true true - fls t alpha ⟨x, (S.bore k).H, (S.bore k).D, H2, D2⟩ true true| ≤ Real.log (1 / (1 - tol)) := by
  have hlo : 0 < (1 - tol) * x := mul_pos (by linarith) hx
  have hb : ∀ a < S.ns k, fls t alpha ⟨(1 + tol) * x, (S.seg k a).H, (S.seg k a).D, H2, D2⟩ true true ≤ fls t alpha ⟨d a, (S.seg k a).H, (S.seg k a).D, H2, D2⟩ true true ∧
      fls t alpha ⟨d a, (S.seg k a).H, (S.seg k a).D, H2, D2⟩ true true ≤ fls t alpha ⟨(1 - tol) * x, (S.seg k a).H, (S.seg k a).D, H2, D2⟩ true true := by
    intro a ha
    obtain ⟨l1, l2⟩ := abs_le.mp (hd a ha)
    have hg : (⟨1, (S.seg k a).H, (S.seg k a).D, H2, D2⟩ : Pair).Ok := ⟨one_pos, (seg_H_pos h hk ha).le, hH⟩
    have hlow : (1 - tol) * x ≤ d a := by linarith
    have hup : d a ≤ (1 + tol) * x := by linarith
    exact ⟨decreasing hα hg (seg_H_pos h hk ha) true (fun _ => ⟨seg_D_nonneg h hk ha, hD⟩) ht (hlo.trans_le hlow) hup,
      decreasing hα hg (seg_H_pos h hk ha) true (fun _ => ⟨seg_D_nonneg h hk ha, hD⟩) ht hlo hlow⟩
  have s1 := Finset.sum_le_sum fun a (ha : a ∈ range (S.ns k)) => (hb a (Finset.mem_range.mp ha)).1
  have s2 := Finset.sum_le_sum fun a (ha : a ∈ range (S.ns k)) => (hb a (Finset.mem_range.mp ha)).2
  rw [sources_sum h t alpha hk (by positivity) hH] at s1
  rw [sources_sum h t alpha hk hlo hH] at s2
  have hg : (⟨1, (S.bore k).H, (S.bore k).D, H2, D2⟩ : Pair).Ok := ⟨one_pos, (h.H k hk).le, hH⟩
  have c1 := close_log hα hg (h.H k hk) true (fun _ => ⟨h.D k hk, hD⟩) ht hx h0 h1 (e := (1 + tol) * x) (by rw [show x - (1 + tol) * x = -(tol * x) by ring, abs_neg, abs_of_nonneg (by positivity)])
  have c2 := close_log hα hg (h.H k hk) true (fun _ => ⟨h.D k hk, hD⟩) ht hx h0 h1 (e := (1 - tol) * x) (by rw [show x - (1 - tol) * x = tol * x by ring, abs_of_nonneg (by positivity)])
  change |fls t alpha ⟨x, (S.bore k).H, (S.bore k).D, H2, D2⟩ true true - fls t alpha ⟨(1 + tol) * x, (S.bore k).H, (S.bore k).D, H2, D2⟩ true true| ≤ _ at c1
  change |fls t alpha ⟨x, (S.bore k).H, (S.bore k).D, H2, D2⟩ true true - fls t alpha ⟨(1 - tol) * x, (S.bore k).H, (S.bore k).D, H2, D2⟩ true true| ≤ _ at c2
  obtain ⟨-, c1⟩ := abs_le.mp c1
  obtain ⟨c2, -⟩ := abs_le.mp c2
  rw [abs_le]
  constructor <;> linarith

theorem sum_except_le {N l : ℕ} (hl : l < N) {f : ℕ → ℝ} {C : ℝ} (h : ∀ k < N, k ≠ l → |f k| ≤ C) (h0 : f l = 0) : |∑ k ∈ range N, f k| ≤ (N - 1) * C := by
  rw [← Finset.add_sum_erase _ _ (Finset.mem_range.mpr hl), h0, zero_add]
  refine (Finset.abs_sum_le_sum_abs _ _).trans ?_
  refine (Finset.sum_le_card_nsmul _ _ C fun k hk => ?_).trans (le_of_eq ?_)
  · obtain ⟨h1, h2⟩ := Finset.mem_erase.mp hk
    exact h k (Finset.mem_range.mp h2) h1
  · rw [Finset.card_erase_of_mem (Finset.mem_range.mpr hl), Finset.card_range, nsmul_eq_mul, Nat.cast_sub (by omega), Nat.cast_one]

/-- The boreholes of the field. -/
def fieldOf (S : Sim) : List Borehole := (List.range S.N).map S.bore

theorem fieldResponse_sum {S : Sim} (h : SimDivided S) (hr : ∀ k < S.N, 0 < (S.bore k).rb) (t alpha : ℝ) :
    fieldResponse alpha (fieldOf S) t =
      (∑ l ∈ range S.N, ∑ b ∈ range (S.ns l), (S.seg l b).H * ∑ k ∈ range S.N, fls t alpha ⟨(S.bore k).distance (S.bore l), (S.bore k).H, (S.bore k).D, (S.seg l b).H, (S.seg l b).D⟩ true true) /
        ∑ l ∈ range S.N, ∑ b ∈ range (S.ns l), (S.seg l b).H := by
  unfold fieldResponse meanResponse totalResponse fieldOf
  simp only [List.map_map, Function.comp_def]
  rw [list_range_sum, list_range_sum]
  congr 1
  · refine Finset.sum_congr rfl fun l hl => ?_
    rw [list_range_sum]
    simp only [Finset.mul_sum]
    rw [Finset.sum_comm]
    refine Finset.sum_congr rfl fun k hk => ?_
    rw [receivers_sum h t alpha (Finset.mem_range.mp hl) (distance_pos (hr k (Finset.mem_range.mp hk)) _) (h.H k (Finset.mem_range.mp hk)).le]
    rfl
  · exact Finset.sum_congr rfl fun l hl => (lengths_sum h (Finset.mem_range.mp hl)).symm

theorem total_pos {S : Sim} (h : SimDivided S) (hN : 0 < S.N) : 0 < ∑ l ∈ range S.N, ∑ b ∈ range (S.ns l), (S.seg l b).H := by
  rw [Finset.sum_congr rfl fun l hl => lengths_sum h (Finset.mem_range.mp hl)]
  exact Finset.sum_pos (fun l hl => h.H l (Finset.mem_range.mp hl)) ⟨0, Finset.mem_range.mpr hN⟩

/-- Values at all times from values over the threshold. -/
theorem linear_close {alpha thr C : ℝ} {bs : List Borehole} (hthr : 0 < thr) (hC : 0 ≤ C) {G : ℝ → ℝ} (h : ∀ t, 0 < t → |G t - fieldResponse alpha bs t| ≤ C) {t : ℝ} (ht : 0 < t) :
    |(if t ≤ thr then G thr * t / thr else G t) - uniformValue alpha bs thr t| ≤ C := by
  unfold uniformValue
  split_ifs with hle
  · rw [show G thr * t / thr - fieldResponse alpha bs thr * t / thr = (G thr - fieldResponse alpha bs thr) * (t / thr) by ring, abs_mul, abs_of_pos (div_pos ht hthr)]
    calc |G thr - fieldResponse alpha bs thr| * (t / thr) ≤ C * 1 := mul_le_mul (h thr hthr) ((div_le_one hthr).mpr hle) (div_pos ht hthr).le hC
      _ = C := mul_one C
  · exact h t ht

/-- **C102** (similarities).  When the similarities found are exact apart from the distances, the g-function with the `similarities` solver differs from the mean response of the
undivided boreholes by at most `-log (1 - disTol)` for every other borehole, at all times; when the distances are equal or differ by more than the tolerance there is no difference. -/
theorem uniform_similarities {alpha : ℝ} (hα : 0 < alpha) {S : Sim} (hS : S.Valid) (hE : S.Same) (hV : SimDivided S) (htol : S.disTol < 1) {dist : List (ℕ × ℕ) → List ℝ × (ℕ → ℕ)}
    (hdist : S.DistOk dist) {time : List ℝ} (hpos : ∀ t ∈ time, 0 < t) (hs : time.Pairwise (· ≤ ·)) {thr : ℝ} (hthr : 0 < thr) :
    ∃ g, uniformSimilarities (fun t p => fls t alpha p true true) S dist time thr = some g ∧ g.length = time.length ∧ ∀ (p : ℕ) (t v : ℝ), time[p]? = some t → g[p]? = some v →
      |v - uniformValue alpha (fieldOf S) thr t| ≤ (S.N - 1) * Real.log (1 / (1 - S.disTol)) ∧ (S.Exact → v = uniformValue alpha (fieldOf S) thr t) := by
  choose M hM hMv using fun t => S.similarities_near t alpha hS hE hdist
  obtain ⟨g, hg, hl, hv⟩ := uniformOf_values S (fun k a => (S.seg k a).H) (F := fun t => S.factors (fun p => fls t alpha p true true) dist) hM hs thr
  obtain ⟨G, hG⟩ : ∃ G : ℝ → ℝ, G = fun t => (∑ l ∈ range S.N, ∑ b ∈ range (S.ns l), (S.seg l b).H * ∑ k ∈ range S.N, ∑ a ∈ range (S.ns k), M t (b + S.first l) (a + S.first k)) /
      ∑ l ∈ range S.N, ∑ b ∈ range (S.ns l), (S.seg l b).H := ⟨_, rfl⟩
  have hε := log_nonneg_tol hS.dis.le htol
  have hx : ∀ k < S.N, ∀ l, 0 < (S.bore k).distance (S.bore l) := fun k hk l => distance_pos (hS.rad k hk) _
  have hclose : ∀ t, 0 < t → |G t - fieldResponse alpha (fieldOf S) t| ≤ (S.N - 1) * Real.log (1 / (1 - S.disTol)) := by
    intro t ht
    rw [hG, fieldResponse_sum hV hS.rad]
    refine mean_close S (w := fun l b => (S.seg l b).H) (x := fun l b => ∑ k ∈ range S.N, ∑ a ∈ range (S.ns k), M t (b + S.first l) (a + S.first k))
      (y := fun l b => ∑ k ∈ range S.N, fls t alpha ⟨(S.bore k).distance (S.bore l), (S.bore k).H, (S.bore k).D, (S.seg l b).H, (S.seg l b).D⟩ true true)
      (fun l hl b hb => (seg_H_pos hV hl hb).le) (total_pos hV hS.size) fun l hl b hb => ?_
    rw [← Finset.sum_sub_distrib]
    refine sum_except_le hl (fun k hk hkl => ?_) ?_
    · choose d hd using fun (a : ℕ) => (show ∃ d, a < S.ns k → M t (b + S.first l) (a + S.first k) = fls t alpha ⟨d, (S.seg k a).H, (S.seg k a).D, (S.seg l b).H, (S.seg l b).D⟩ true true ∧
          |d - (S.bore k).distance (S.bore l)| ≤ S.disTol * (S.bore k).distance (S.bore l) from by
        by_cases ha : a < S.ns k
        · obtain ⟨d, e, -, h2⟩ := hMv t k hk l hl a ha b hb
          exact ⟨d, fun _ => ⟨e, (h2 hkl).1⟩⟩
        · exact ⟨0, fun h => absurd h ha⟩)
      rw [Finset.sum_congr rfl fun a ha => (hd a (Finset.mem_range.mp ha)).1]
      exact sources_close hV hα ht hk (hx k hk l) hS.dis.le htol (seg_H_pos hV hl hb) (seg_D_nonneg hV hl hb) fun a ha => (hd a ha).2
    · have e : ∀ a ∈ range (S.ns l), M t (b + S.first l) (a + S.first l) = fls t alpha ⟨(S.bore l).distance (S.bore l), (S.seg l a).H, (S.seg l a).D, (S.seg l b).H, (S.seg l b).D⟩ true true := by
        intro a ha
        obtain ⟨d, e, h1, -⟩ := hMv t l hl l hl a (Finset.mem_range.mp ha) b hb
        rw [e, h1 rfl, S.distance_self (hS.rad l hl)]
      rw [Finset.sum_congr rfl e, sources_sum hV t alpha hl (hx l hl l) (seg_H_pos hV hl hb), sub_self]
  refine ⟨g, hg, hl, fun p t v ht hvv => ?_⟩
  have e := hv p t ht
  rw [hvv, Option.some.injEq] at e
  have htp := hpos t (List.mem_of_getElem? ht)
  have hN : (0 : ℝ) ≤ S.N - 1 := by
    have : (1 : ℝ) ≤ S.N := by exact_mod_cast hS.size
    linarith
  have e' : v = if t ≤ thr then G thr * t / thr else G t := by rw [e, hG]
  refine ⟨by rw [e']; exact linear_close hthr (mul_nonneg hN hε) hclose htp, fun hX => ?_⟩
  have hexact : ∀ t, G t = fieldResponse alpha (fieldOf S) t := by
    intro t
    rw [hG, fieldResponse_sum hV hS.rad]
    dsimp only
    congr 1
    refine Finset.sum_congr rfl fun l hl => Finset.sum_congr rfl fun b hb => ?_
    have hl := Finset.mem_range.mp hl
    have hb := Finset.mem_range.mp hb
    congr 1
    refine Finset.sum_congr rfl fun k hk => ?_
    have hk := Finset.mem_range.mp hk
    rw [← sources_sum hV t alpha hk (hx k hk l) (seg_H_pos hV hl hb)]
    refine Finset.sum_congr rfl fun a ha => ?_
    obtain ⟨d, ed, h1, h2⟩ := hMv t k hk l hl a (Finset.mem_range.mp ha) b hb
    have hdd : d = (S.bore k).distance (S.bore l) := by
      by_cases hkl : k = l
      · subst hkl
        rw [h1 rfl, S.distance_self (hS.rad k hk)]
      · exact S.merged_exact hX hk hl (h2 hkl).2
    rw [ed, hdd]
  rw [e', hexact, hexact]
  rfl

/-! ### Equivalent boreholes -/

/-- The boreholes that the equivalent boreholes stand for. -/
def fieldEq (E : EqSol) : List Borehole := (List.range E.n).flatMap fun i => (E.eb i).pos.map fun p => ⟨(E.eb i).H, (E.eb i).D, (E.eb i).rb, p.1, p.2, 0, 0⟩

/-- The response of segment `b` of a borehole of `j` to a borehole of `i` at the distance `d`. -/
def whole (E : EqSol) (t alpha : ℝ) (i j b : ℕ) (d : ℝ) : ℝ := fls t alpha ⟨d, (E.eb i).H, (E.eb i).D, (E.sim.seg j b).H, (E.sim.seg j b).D⟩ true true

theorem whole_sum {E : EqSol} (h : SimDivided E.sim) (t alpha : ℝ) {i j b : ℕ} (hi : i < E.n) (hj : j < E.n) (hb : b < E.ns) {d : ℝ} (hd : 0 < d) :
    ∑ a ∈ range E.ns, E.resp t alpha i j a b d = whole E t alpha i j b d := by
  unfold EqSol.resp Sim.geometry whole
  exact sources_sum h t alpha hi hd (seg_H_pos h hj hb) (E.sim.seg j b).D

theorem whole_receivers {E : EqSol} (h : SimDivided E.sim) (t alpha : ℝ) {i j : ℕ} (hi : i < E.n) (hj : j < E.n) {d : ℝ} (hd : 0 < d) :
    ∑ b ∈ range E.ns, (E.sim.seg j b).H * whole E t alpha i j b d = (E.eb j).H * fls t alpha ⟨d, (E.eb i).H, (E.eb i).D, (E.eb j).H, (E.eb j).D⟩ true true :=
  receivers_sum h t alpha hj hd (h.H i hi).le (E.eb i).D

theorem whole_lengths {E : EqSol} (h : SimDivided E.sim) {j : ℕ} (hj : j < E.n) : ∑ b ∈ range E.ns, (E.sim.seg j b).H = (E.eb j).H := lengths_sum h hj

theorem pairOf_posDist (e f : EqBore) (p q : ℝ × ℝ) : pairOf ⟨e.H, e.D, e.rb, p.1, p.2, 0, 0⟩ ⟨f.H, f.D, f.rb, q.1, q.2, 0, 0⟩ = ⟨posDist e.rb p q, e.H, e.D, f.H, f.D⟩ := by
  unfold pairOf Borehole.distance posDist
  dsimp only
  rw [max_comm, show (p.1 - q.1) ^ 2 + (p.2 - q.2) ^ 2 = (q.1 - p.1) ^ 2 + (q.2 - p.2) ^ 2 by ring]

theorem fieldEq_sum {E : EqSol} (hE : E.Similar) (h : SimDivided E.sim) (t alpha : ℝ) :
    fieldResponse alpha (fieldEq E) t = (∑ j ∈ range E.n, ∑ b ∈ range E.ns, E.segLen j b *
        ∑ i ∈ range E.n, ((E.eb j).pos.map fun q => ((E.eb i).pos.map fun p => whole E t alpha i j b (posDist (E.eb i).rb p q)).sum).sum / (E.eb j).pos.length) /
      ∑ j ∈ range E.n, ∑ b ∈ range E.ns, E.segLen j b := by
  have hrb : ∀ i < E.n, 0 < (E.eb i).rb := fun i hi => by rw [hE.radius i hi]; exact hE.rpos
  unfold fieldResponse meanResponse totalResponse fieldEq
  rw [sum_flatMap_map, sum_flatMap_map, list_range_sum, list_range_sum]
  congr 1
  · refine Finset.sum_congr rfl fun j hj => ?_
    have hj := Finset.mem_range.mp hj
    have hsj : ((E.eb j).pos.length : ℝ) ≠ 0 := by exact_mod_cast (List.length_pos_iff.mpr (hE.size j hj)).ne'
    rw [List.map_map]
    have e1 : ∀ b ∈ range E.ns, E.segLen j b * ∑ i ∈ range E.n, ((E.eb j).pos.map fun q => ((E.eb i).pos.map fun p => whole E t alpha i j b (posDist (E.eb i).rb p q)).sum).sum / (E.eb j).pos.length =
        ((E.eb j).pos.map fun q => ∑ i ∈ range E.n, ((E.eb i).pos.map fun p => (E.sim.seg j b).H * whole E t alpha i j b (posDist (E.eb i).rb p q)).sum).sum := by
      intro b _
      rw [← Finset.sum_div]
      unfold EqSol.segLen EqSol.size
      rw [mul_assoc, mul_div_cancel₀ _ hsj, list_sum_swap, ← List.sum_map_mul_left]
      congr 1
      refine List.map_congr_left fun q _ => ?_
      rw [Finset.mul_sum]
      exact Finset.sum_congr rfl fun i _ => by rw [List.sum_map_mul_left]
    rw [Finset.sum_congr rfl e1, list_sum_swap]
    congr 1
    refine List.map_congr_left fun q _ => ?_
    rw [Finset.sum_comm]
    simp only [Function.comp_apply]
    rw [sum_flatMap_map, list_range_sum, Finset.mul_sum]
    refine Finset.sum_congr rfl fun i hi => ?_
    have hi := Finset.mem_range.mp hi
    rw [list_sum_swap, List.map_map, ← List.sum_map_mul_left]
    congr 1
    refine List.map_congr_left fun p _ => ?_
    rw [whole_receivers h t alpha hi hj (EqSol.posDist_pos (hrb i hi) p q)]
    simp only [Function.comp_apply]
    rw [pairOf_posDist]
  · refine Finset.sum_congr rfl fun j hj => ?_
    have hj := Finset.mem_range.mp hj
    unfold EqSol.segLen EqSol.size
    rw [← Finset.sum_mul, List.map_map, whole_lengths h hj]
    simp only [Function.comp_def]
    rw [List.map_const', List.sum_replicate, nsmul_eq_mul, mul_comm]

/-- **C102** (equivalent).  When the similarities found are exact apart from the distances, and the distances used differ from the distances by at most the fraction `tol`, the g-function
with the `equivalent` solver differs from the mean response of the undivided boreholes by at most `-log (1 - tol)` for every other borehole, at all times; when the distances are in
the list there is no difference. -/
theorem uniform_equivalent {alpha tol : ℝ} (hα : 0 < alpha) {E : EqSol} (hE : E.Similar) (hV : SimDivided E.sim) (h0 : 0 ≤ tol) (h1 : tol < 1)
    (hnear : ∀ i < E.n, ∀ j < E.n, ∀ d ∈ E.between i j, 0 < d ∧ |d - rep E.dis d| ≤ tol * d) {time : List ℝ} (hpos : ∀ t ∈ time, 0 < t) (hs : time.Pairwise (· ≤ ·)) {thr : ℝ}
    (hthr : 0 < thr) :
    ∃ g, uniformEquivalent (fun t => EqSol.flsE t alpha) (fun t p => fls t alpha p true true) E time thr = some g ∧ g.length = time.length ∧
      ∀ (p : ℕ) (t v : ℝ), time[p]? = some t → g[p]? = some v →
        |v - uniformValue alpha (fieldEq E) thr t| ≤ ((fieldEq E).length - 1) * Real.log (1 / (1 - tol)) ∧ (E.Exact → v = uniformValue alpha (fieldEq E) thr t) := by
  choose M hM hMv using fun t => E.equivalent_near hE t alpha
  obtain ⟨g, hg, hl, hv⟩ := uniformOf_values E.sim (fun j b => E.segLen j b) (F := fun t => E.factors (EqSol.flsE t alpha) fun p => fls t alpha p true true) hM hs thr
  obtain ⟨G, hG⟩ : ∃ G : ℝ → ℝ, G = fun t => (∑ j ∈ range E.n, ∑ b ∈ range E.ns, E.segLen j b * ∑ i ∈ range E.n, ∑ a ∈ range E.ns, M t (b + E.sim.first j) (a + E.sim.first i)) /
      ∑ j ∈ range E.n, ∑ b ∈ range E.ns, E.segLen j b := ⟨_, rfl⟩
  have hε := log_nonneg_tol h0 h1
  have hrb : ∀ i < E.n, 0 < (E.eb i).rb := fun i hi => by rw [hE.radius i hi]; exact hE.rpos
  have hsize : ∀ j < E.n, (0 : ℝ) < (E.eb j).pos.length := fun j hj => by exact_mod_cast List.length_pos_iff.mpr (hE.size j hj)
  have hrep : ∀ i < E.n, ∀ j < E.n, ∀ d ∈ E.between i j, 0 < rep E.dis d := by
    intro i hi j hj d hd
    obtain ⟨p1, p2⟩ := hnear i hi j hj d hd
    have := (abs_le.mp p2).2
    nlinarith
  have hcount : ((fieldEq E).length : ℝ) = ∑ i ∈ range E.n, ((E.eb i).pos.length : ℝ) := by
    unfold fieldEq
    rw [List.length_flatMap, ← list_range_sum]
    push_cast
    simp [Function.comp_def]
  have hseglen : ∀ j < E.n, ∀ b < E.ns, 0 < E.segLen j b := fun j hj b hb => by
    unfold EqSol.segLen EqSol.size
    exact mul_pos (seg_H_pos hV hj hb) (hsize j hj)
  have hns : 0 < E.ns := by
    by_contra hns
    have : E.rs = [] := List.eq_nil_of_length_eq_zero (by rw [hE.ratios]; omega)
    have hs1 : E.rs.sum = 1 := hV.sum 0 hE.count
    rw [this] at hs1
    simp at hs1
  have htot : 0 < ∑ j ∈ range E.n, ∑ b ∈ range E.ns, E.segLen j b :=
    Finset.sum_pos (fun j hj => Finset.sum_pos (fun b hb => hseglen j (Finset.mem_range.mp hj) b (Finset.mem_range.mp hb)) ⟨0, Finset.mem_range.mpr hns⟩) ⟨0, Finset.mem_range.mpr hE.count⟩
  -- sums over the emitting segments
  have hsumM : ∀ t, ∀ i < E.n, ∀ j < E.n, ∀ b < E.ns, ∑ a ∈ range E.ns, M t (b + E.sim.first j) (a + E.sim.first i) =
      ((E.between i j).map fun d => whole E t alpha i j b (rep E.dis d)).sum / (E.eb j).pos.length + if i = j then whole E t alpha i j b (E.eb i).rb else 0 := by
    intro t i hi j hj b hb
    rw [Finset.sum_congr rfl fun a ha => hMv t i hi j hj a (Finset.mem_range.mp ha) b hb, Finset.sum_add_distrib, ← Finset.sum_div, list_sum_swap]
    congr 1
    · congr 2
      exact List.map_congr_left fun d hd => whole_sum hV t alpha hi hj hb (hrep i hi j hj d hd)
    · split_ifs
      · exact whole_sum hV t alpha hi hj hb (hrb i hi)
      · simp
  have hsumW : ∀ t, ∀ i < E.n, ∀ j < E.n, ∀ b < E.ns, ((E.eb j).pos.map fun q => ((E.eb i).pos.map fun p => whole E t alpha i j b (posDist (E.eb i).rb p q)).sum).sum / (E.eb j).pos.length =
      ((E.between i j).map fun d => whole E t alpha i j b d).sum / (E.eb j).pos.length + if i = j then whole E t alpha i j b (E.eb i).rb else 0 := by
    intro t i hi j hj b hb
    rw [E.sum_between (fun d => whole E t alpha i j b d) (hrb i hi).le]
    have := hsize j hj
    by_cases hij : i = j
    · subst hij
      rw [if_pos rfl, if_pos rfl]
      field_simp
    · rw [if_neg hij, if_neg hij, add_zero, add_zero]
  have hclose : ∀ t, 0 < t → |G t - fieldResponse alpha (fieldEq E) t| ≤ ((fieldEq E).length - 1) * Real.log (1 / (1 - tol)) := by
    intro t ht
    rw [hG, fieldEq_sum hE hV]
    refine mean_close E.sim (w := fun j b => E.segLen j b) (x := fun j b => ∑ i ∈ range E.n, ∑ a ∈ range E.ns, M t (b + E.sim.first j) (a + E.sim.first i))
      (y := fun j b => ∑ i ∈ range E.n, ((E.eb j).pos.map fun q => ((E.eb i).pos.map fun p => whole E t alpha i j b (posDist (E.eb i).rb p q)).sum).sum / (E.eb j).pos.length)
      (fun j hj b hb => (hseglen j hj b hb).le) htot fun j hj b hb => ?_
    rw [← Finset.sum_sub_distrib]
    have hone : ∀ i ∈ range E.n, |∑ a ∈ range E.ns, M t (b + E.sim.first j) (a + E.sim.first i) -
        ((E.eb j).pos.map fun q => ((E.eb i).pos.map fun p => whole E t alpha i j b (posDist (E.eb i).rb p q)).sum).sum / (E.eb j).pos.length| ≤
          (((E.eb i).pos.length : ℝ) - if i = j then 1 else 0) * Real.log (1 / (1 - tol)) := by
      intro i hi
      have hi := Finset.mem_range.mp hi
      rw [hsumM t i hi j hj b hb, hsumW t i hi j hj b hb, add_sub_add_right_eq_sub, ← sub_div, abs_div, abs_of_pos (hsize j hj), div_le_iff₀ (hsize j hj)]
      have hgOk : (⟨1, (E.eb i).H, (E.eb i).D, (E.sim.seg j b).H, (E.sim.seg j b).D⟩ : Pair).Ok := ⟨one_pos, (hV.H i hi).le, seg_H_pos hV hj hb⟩
      have hone := EqIn.abs_sum_sub_le (E.between i j) (f := fun d => whole E t alpha i j b (rep E.dis d)) (g := fun d => whole E t alpha i j b d) (h := fun _ => Real.log (1 / (1 - tol)))
        fun d hd => by
          rw [abs_sub_comm]
          exact close_log hα hgOk (hV.H i hi) true (fun _ => ⟨hV.D i hi, seg_D_nonneg hV hj hb⟩) ht (hnear i hi j hj d hd).1 h0 h1 (hnear i hi j hj d hd).2
      rw [List.map_const', List.sum_replicate, nsmul_eq_mul, E.between_length] at hone
      exact hone.trans (le_of_eq (by ring))
    refine (Finset.abs_sum_le_sum_abs _ _).trans ((Finset.sum_le_sum hone).trans (le_of_eq ?_))
    rw [← Finset.sum_mul, Finset.sum_sub_distrib, Finset.sum_ite_eq', if_pos (show j ∈ range E.n from Finset.mem_range.mpr hj), hcount]
  refine ⟨g, hg, hl, fun p t v ht hvv => ?_⟩
  have e := hv p t ht
  rw [hvv, Option.some.injEq] at e
  have htp := hpos t (List.mem_of_getElem? ht)
  have e' : v = if t ≤ thr then G thr * t / thr else G t := by rw [e, hG]; rfl
  have hN : (0 : ℝ) ≤ (fieldEq E).length - 1 := by
    rw [hcount]
    have h1' : ((E.eb 0).pos.length : ℝ) ≤ ∑ i ∈ range E.n, ((E.eb i).pos.length : ℝ) :=
      Finset.single_le_sum (f := fun i => ((E.eb i).pos.length : ℝ)) (fun i _ => Nat.cast_nonneg _) (Finset.mem_range.mpr hE.count)
    have h2' : (1 : ℝ) ≤ (E.eb 0).pos.length := by exact_mod_cast List.length_pos_iff.mpr (hE.size 0 hE.count)
    linarith
  refine ⟨by rw [e']; exact linear_close hthr (mul_nonneg hN hε) hclose htp, fun hX => ?_⟩
  have hexact : ∀ t, G t = fieldResponse alpha (fieldEq E) t := by
    intro t
    rw [hG, fieldEq_sum hE hV]
    dsimp only
    congr 1
    refine Finset.sum_congr rfl fun j hj => Finset.sum_congr rfl fun b hb => ?_
    have hj := Finset.mem_range.mp hj
    have hb := Finset.mem_range.mp hb
    congr 1
    refine Finset.sum_congr rfl fun i hi => ?_
    have hi := Finset.mem_range.mp hi
    rw [hsumM t i hi j hj b hb, hsumW t i hi j hj b hb]
    congr 3
    exact List.map_congr_left fun d hd => by rw [rep_mem hE.sorted (hX.mem i hi j hj d hd)]
  rw [e', hexact, hexact]
  rfl

/-! ### The three solvers -/

/-- A borehole without its direction of tilt. -/
def plain (b : Borehole) : Borehole := ⟨b.H, b.D, b.rb, b.x, b.y, 0, 0⟩

theorem fieldResponse_plain (alpha : ℝ) (bs : List Borehole) (t : ℝ) : fieldResponse alpha (bs.map plain) t = fieldResponse alpha bs t :=
  field_displaced (f := plain) alpha ⟨fun _ => rfl, fun _ => rfl, fun _ => rfl, fun _ _ => rfl⟩ bs t

theorem fieldEq_perm (E : EqIn) (hc : CutOk E.cut) {H D rb : ℝ} {n : ℕ} (hU : (E.field n).Identical H D rb n) (dis : List ℝ) {es : List EqBore} (hes : E.equivalents = some es) (rs : List ℝ) :
    (fieldEq (E.solver es dis n rs)).Perm ((fieldOf (E.field n)).map plain) := by
  obtain ⟨es', h1, h2, h3⟩ := E.uniform_equivalents hc hU
  rw [hes] at h1
  obtain rfl := Option.some.inj h1
  have e : fieldEq (E.solver es dis n rs) = ((List.range E.clusters.2).map E.cluster).flatten.map fun k => plain (E.bore k) := by
    unfold fieldEq
    change (List.range es.length).flatMap (fun i => (es.getD i ⟨0, 0, 0, []⟩).pos.map fun p =>
      (⟨(es.getD i ⟨0, 0, 0, []⟩).H, (es.getD i ⟨0, 0, 0, []⟩).D, (es.getD i ⟨0, 0, 0, []⟩).rb, p.1, p.2, 0, 0⟩ : Borehole)) = _
    rw [h2, List.map_flatten, List.map_map, List.flatMap_def]
    congr 1
    refine List.map_congr_left fun i hi => ?_
    have hi := List.mem_range.mp hi
    rw [h3 i hi]
    simp only [Function.comp_apply, List.map_map]
    refine List.map_congr_left fun k hk => ?_
    have hk := E.cluster_lt hc i hi k hk
    simp only [Function.comp_apply, plain]
    rw [show (E.bore k).H = H from hU.H_eq k hk, show (E.bore k).D = D from hU.D_eq k hk, show (E.bore k).rb = rb from hU.rb_eq k hk]
  rw [e]
  unfold fieldOf
  rw [List.map_map]
  exact (E.cluster_perm hc).map _

theorem uniformRatios_ok {n : ℕ} (hn : 0 < n) : (∀ ρ ∈ uniformRatios n, 0 < ρ) ∧ (uniformRatios n).sum = 1 ∧ (uniformRatios n).length = n := by
  have : (0 : ℝ) < n := by exact_mod_cast hn
  refine ⟨fun ρ hρ => ?_, ?_, by simp [uniformRatios]⟩
  · rw [List.eq_of_mem_replicate hρ]; positivity
  · unfold uniformRatios
    rw [List.sum_replicate, nsmul_eq_mul]
    field_simp

theorem identical_divided {S : Sim} {H D rb : ℝ} {n : ℕ} (hU : S.Identical H D rb n) : SimDivided S := by
  obtain ⟨r1, r2, r3⟩ := uniformRatios_ok hU.pos.2.2.2
  refine ⟨hU.tilt_eq, fun k hk => by rw [hU.H_eq k hk]; exact hU.pos.1, fun k hk => by rw [hU.D_eq k hk]; exact hU.pos.2.1, fun k hk => by rw [hU.rs_eq k hk, hU.ns_eq k hk, r3],
    fun k hk => by rw [hU.rs_eq k hk]; exact r1, fun k hk => by rw [hU.rs_eq k hk, r2]⟩

theorem solver_divided (E : EqIn) (hc : CutOk E.cut) {H D rb : ℝ} {n : ℕ} (hU : (E.field n).Identical H D rb n) (dis : List ℝ) {es : List EqBore} (hes : E.equivalents = some es) :
    SimDivided (E.solver es dis n (uniformRatios n)).sim := by
  obtain ⟨es', h1, h2, h3⟩ := E.uniform_equivalents hc hU
  rw [hes] at h1
  obtain rfl := Option.some.inj h1
  obtain ⟨r1, r2, r3⟩ := uniformRatios_ok hU.pos.2.2.2
  have hi : ∀ i < (E.solver es dis n (uniformRatios n)).sim.N, es.getD i ⟨0, 0, 0, []⟩ = ⟨H, D, rb, (E.cluster i).map fun k => ((E.bore k).x, (E.bore k).y)⟩ := fun i hi => h3 i (h2 ▸ hi)
  refine ⟨fun _ _ => rfl, fun i h => ?_, fun i h => ?_, fun _ _ => r3, fun _ _ => r1, fun _ _ => r2⟩
  · show 0 < (es.getD i ⟨0, 0, 0, []⟩).H
    rw [hi i h]
    exact hU.pos.1
  · show 0 ≤ (es.getD i ⟨0, 0, 0, []⟩).D
    rw [hi i h]
    exact hU.pos.2.1

/-- **C102.**  For every field of identical vertical boreholes with uniform segments whose tolerance separates the segments, no two of which are within the tolerance of the radius from
each other, the g-functions for a uniform heat extraction rate with the `similarities` and the `equivalent` solver differ from that with the `detailed` solver by at most
`-log (1 - disTol)` for every other borehole, at all times; when the distances are equal or differ by more than the tolerance, the three are the same. -/
theorem solvers_agree {alpha : ℝ} (hα : 0 < alpha) (E : EqIn) (hc : CutOk E.cut) {H D rb : ℝ} {n : ℕ} (hU : (E.field n).Identical H D rb n) (hA : E.Spaced rb) (htol : E.disTol < 1)
    {dist : List (ℕ × ℕ) → List ℝ × (ℕ → ℕ)} (hdist : (E.field n).DistOk dist) {dis : List ℝ} {wDis : List ℕ} (hu : UniqueDistance E.disTol E.allDistances dis wDis)
    {K : ℝ → Bool → Borehole → Borehole → ℝ} (hK : ∀ t s r, K t true s r = fls t alpha (pairOf s r) true true) {time : List ℝ} (hpos : ∀ t ∈ time, 0 < t) (hs : time.Pairwise (· ≤ ·))
    {thr : ℝ} (hthr : 0 < thr) :
    ∃ es gD gS gE, E.equivalents = some es ∧
      uniformDetailed K ((List.range E.N).map E.bore) ((List.range E.N).map fun _ => n) ((List.range E.N).map fun _ => uniformRatios n) time thr = some gD ∧
      uniformSimilarities (fun t p => fls t alpha p true true) (E.field n) dist time thr = some gS ∧
      uniformEquivalent (fun t => EqSol.flsE t alpha) (fun t p => fls t alpha p true true) (E.solver es dis n (uniformRatios n)) time thr = some gE ∧
      gD.length = time.length ∧ gS.length = time.length ∧ gE.length = time.length ∧
      ∀ (p : ℕ) (vD vS vE : ℝ), gD[p]? = some vD → gS[p]? = some vS → gE[p]? = some vE →
        |vS - vD| ≤ (E.N - 1) * Real.log (1 / (1 - E.disTol)) ∧ |vE - vD| ≤ (E.N - 1) * Real.log (1 / (1 - E.disTol)) ∧
          ((E.field n).UniformField H D rb n → vS = vD ∧ vE = vD) := by
  have hN : 0 < E.N := hU.size
  obtain ⟨r1, r2, r3⟩ := uniformRatios_ok hU.pos.2.2.2
  have hmem : ∀ b ∈ (List.range E.N).map E.bore, ∃ k < E.N, b = E.bore k := fun b hb => by
    obtain ⟨k, hk, rfl⟩ := List.mem_map.mp hb
    exact ⟨k, List.mem_range.mp hk, rfl⟩
  have hUp : Upright rb ((List.range E.N).map E.bore) := by
    refine ⟨?_, fun b hb => ?_, hU.pos.2.2.1, fun b hb => ?_, fun b hb => ?_, fun b hb => ?_⟩
    · simp; omega
    all_goals obtain ⟨k, hk, rfl⟩ := hmem b hb
    · exact hU.tilt_eq k hk
    · exact hU.rb_eq k hk
    · rw [show (E.bore k).H = H from hU.H_eq k hk]; exact hU.pos.1
    · rw [show (E.bore k).D = D from hU.D_eq k hk]; exact hU.pos.2.1
  have hrs : ∀ r ∈ (List.range E.N).map fun _ => uniformRatios n, r = uniformRatios n := fun r hr => by
    obtain ⟨k, -, rfl⟩ := List.mem_map.mp hr
    rfl
  have hSp : Splits ((List.range E.N).map E.bore) ((List.range E.N).map fun _ => n) ((List.range E.N).map fun _ => uniformRatios n) := by
    refine ⟨⟨by simp, ?_⟩, fun r hr => by rw [hrs r hr]; exact r1, fun r hr => by rw [hrs r hr]; exact r2⟩
    rw [List.map_map]
    exact List.map_congr_left fun _ _ => r3
  obtain ⟨es, hes, -, -⟩ := E.uniform_equivalents hc hU
  have hD := uniform_values hK hUp hSp hs thr
  obtain ⟨gS, hS1, hS2, hS3⟩ := uniform_similarities hα (Sim.Identical.valid _ hU) (Sim.Identical.same _ hU) (identical_divided hU) htol hdist hpos hs hthr
  obtain ⟨gE, hE1, hE2, hE3⟩ := uniform_equivalent hα (E.uniform_similar hc hU hA hu hes) (solver_divided E hc hU dis hes) hU.disTol.le htol
    (fun i hi j hj d hd => (E.uniform_near hc hU hA hu hes hi hj hd).2) hpos hs hthr
  have hperm := fieldEq_perm E hc hU dis hes (uniformRatios n)
  have hval : ∀ t, uniformValue alpha (fieldEq (E.solver es dis n (uniformRatios n))) thr t = uniformValue alpha (fieldOf (E.field n)) thr t := fun t => by
    unfold uniformValue
    rw [field_perm alpha hperm, field_perm alpha hperm, fieldResponse_plain, fieldResponse_plain]
  have hlen : (fieldEq (E.solver es dis n (uniformRatios n))).length = E.N := by
    rw [hperm.length_eq, List.length_map]
    unfold fieldOf
    rw [List.length_map, List.length_range]
    rfl
  rw [hlen] at hE3
  refine ⟨es, _, gS, gE, hes, hD, hS1, hE1, by simp, hS2, hE2, fun p vD vS vE h1 h2 h3 => ?_⟩
  rw [List.getElem?_map] at h1
  rcases ht : time[p]? with _ | t
  · rw [ht] at h1; simp at h1
  · rw [ht] at h1
    have h1 : uniformValue alpha (fieldOf (E.field n)) thr t = vD := Option.some.inj h1
    obtain ⟨a1, a2⟩ := hS3 p t vS ht h2
    obtain ⟨b1, b2⟩ := hE3 p t vE ht h3
    rw [h1] at a1 a2
    rw [hval, h1] at b1 b2
    refine ⟨a1, b1, fun hX => ⟨a2 (Sim.UniformField.exact _ hX), b2 ?_⟩⟩
    refine E.uniform_exact hc hX (fun k hk l hl hkl => ?_) hu hes
    have := hA k hk l hl hkl
    have h5 : 0 < E.disTol := hU.disTol
    have h6 := hU.pos.2.2.1
    nlinarith

open EqIn in
/-- Three boreholes, of which the distances are merged: the three solvers answer, with values within `-2 log 0.99` of each other. -/
example : ∃ dist dis wDis es gD gS gE, UniqueDistance eqBent3.disTol eqBent3.allDistances dis wDis ∧ eqBent3.equivalents = some es ∧
    uniformDetailed (fun t _ s r => fls t (1 / 10 ^ 6) (pairOf s r) true true) ((List.range 3).map eqBent3.bore) ((List.range 3).map fun _ => 12) ((List.range 3).map fun _ => uniformRatios 12)
      [3600, 7200] 3600 = some gD ∧
    uniformSimilarities (fun t p => fls t (1 / 10 ^ 6) p true true) (eqBent3.field 12) dist [3600, 7200] 3600 = some gS ∧
    uniformEquivalent (fun t => EqSol.flsE t (1 / 10 ^ 6)) (fun t p => fls t (1 / 10 ^ 6) p true true) (eqBent3.solver es dis 12 (uniformRatios 12)) [3600, 7200] 3600 = some gE ∧
    gD.length = 2 ∧ gS.length = 2 ∧ gE.length = 2 := by
  obtain ⟨dist, hdist⟩ := (eqBent3.field 12).dist_exists (Sim.Identical.valid _ eqBent3_identical)
  obtain ⟨dis, wDis, -, hu, -⟩ := unique_distance_groups eqBent3.disTol (by norm_num [eqBent3]) eqBent3.allDistances (by
    intro x hx
    obtain ⟨k, hk, l, hl, rfl⟩ := (eqBent3.mem_allDistances eqBent3_identical).mp hx
    exact lt_of_lt_of_le (by norm_num [eqBent3, Sim.bent3]) (le_max_left _ _))
  obtain ⟨es, gD, gS, gE, h1, h2, h3, h4, h5, h6, h7, -⟩ := solvers_agree (alpha := 1 / 10 ^ 6) (by norm_num) eqBent3 twoClusters_ok eqBent3_identical eqBent3_spaced
    (by norm_num [eqBent3]) hdist hu (K := fun t _ s r => fls t (1 / 10 ^ 6) (pairOf s r) true true) (fun _ _ _ => rfl) (time := [3600, 7200]) (by norm_num) (by norm_num) (thr := 3600) (by norm_num)
  exact ⟨dist, dis, wDis, es, gD, gS, gE, hu, h1, h2, h3, h4, h5, h6, h7⟩

open EqIn in
/-- A row of three equally spaced boreholes meets the hypothesis of equality. -/
example : (eqRow3.field 12).UniformField 150 4 (3 / 40) 12 ∧ eqRow3.Spaced (3 / 40) ∧ eqRow3.disTol < 1 :=
  ⟨eqRow3_uniform, eqRow3.uniform_spaced eqRow3_uniform eqRow3_apart, by norm_num [eqRow3]⟩

end Verif.Gf
