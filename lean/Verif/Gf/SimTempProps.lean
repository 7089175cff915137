import Verif.Gf.RingProps
import Verif.Sol.SimMixed

/-!
# Uniform temperature and mixed inlet temperature: `similarities` against `detailed`; examples of congruent fields
-/

noncomputable section

namespace Verif.Gf

open Bore FLS Sol Finset

variable {S : Sim} {alpha : ℝ} {K : ℝ → Bool → Borehole → Borehole → ℝ}

theorem distinct_fit (h : S.Distinct) : Fit S (S.bore 0).rb :=
  ⟨h.size, h.tilt, ⟨(h.rad 0 h.size).2, fun k hk => (h.rad k hk).1⟩, fun k hk => (h.dims k hk).1, fun k hk => (h.dims k hk).2, fun k hk => (h.ratios k hk).2.1,
    fun k hk => (h.ratios k hk).2.2.2, fun k hk => (h.ratios k hk).2.2.1⟩

/-- **C103** (uniform temperature).  For vertical boreholes of any lengths, depths and segments, with spacings of at least ten radii and dimensions and distances that are equal or differ by
more than the tolerances, the g-function and the heat extraction rates are returned by both solvers, and they are the same. -/
theorem temperature_similarities (ha : 0 < alpha) (hK : ∀ t s r, K t true s r = fls t alpha (pairOf s r) true true) (hS : S.Separated) (hsp : Spaced (S.bore 0).rb (bores S))
    {dist : List (ℕ × ℕ) → List ℝ × (ℕ → ℕ)} (hdist : S.DistOk dist) {time : List ℝ} (hpos : ∀ t ∈ time, 0 < t) (hs : time.Pairwise (· < ·)) {thr : ℝ} (hthr : 0 < thr) :
    ∃ out, temperatureSimilarities (fun t p => fls t alpha p true true) S dist (segmentList (bores S) (counts S) (ratios S)).length time thr = some out ∧
      temperatureDetailed K (bores S) (counts S) (ratios S) time thr = some out := by
  have hf := distinct_fit hS.toDistinct
  obtain ⟨out, h⟩ := temperature_returns ha hK hf.upright hf.splits hsp hpos hs hthr
  exact ⟨out, (similarities_solve hS.toDistinct.valid hS.exact hdist hK time thr).1.trans h, h⟩

/-- **C103** (mixed inlet temperature). -/
theorem mixed_similarities (ha : 0 < alpha) (hK : ∀ t s r, K t true s r = fls t alpha (pairOf s r) true true) (hS : S.Separated) (hsp : Spaced (S.bore 0).rb (bores S))
    {dist : List (ℕ × ℕ) → List ℝ × (ℕ → ℕ)} (hdist : S.DistOk dist) {time : List ℝ} (hpos : ∀ t ∈ time, 0 < t) (hs : time.Pairwise (· < ·)) {thr : ℝ} (hthr : 0 < thr)
    {f : Flow (segmentList (bores S) (counts S) (ratios S)).length} (hp : Passive f fun _ => 1) (hks : 0 < f.ks) (hHb : f.Hb = segmentLengths (bores S) (counts S) (ratios S)) :
    ∃ out, mixedSimilarities (fun t p => fls t alpha p true true) S dist f time thr = some out ∧ mixedDetailed K (bores S) (counts S) (ratios S) f time thr = some out := by
  have hf := distinct_fit hS.toDistinct
  obtain ⟨out, h⟩ := mixed_returns ha hK hf.upright hf.splits hsp hpos hs hthr hp hks hHb
  exact ⟨out, ((similarities_solve hS.toDistinct.valid hS.exact hdist hK time thr).2 f).trans h, h⟩

/-! ### Examples -/

theorem mixed2_spaced : Spaced (Sim.mixed2.bore 0).rb (bores Sim.mixed2) := by
  rw [spaced_iff]
  intro k hk l hl hkl
  have hk : k < 2 := hk
  have hl : l < 2 := hl
  interval_cases k <;> interval_cases l <;> first | exact absurd rfl hkl | norm_num [Sim.mixed2]

example : ∃ dist out, Sim.mixed2.DistOk dist ∧
    temperatureSimilarities (fun t p => fls t (1 / 10 ^ 6) p true true) Sim.mixed2 dist (segmentList (bores Sim.mixed2) (counts Sim.mixed2) (ratios Sim.mixed2)).length [3600, 10 ^ 6, 10 ^ 9] 3600 = some out := by
  obtain ⟨dist, hdist⟩ := Sim.mixed2.dist_exists Sim.mixed2_separated.toDistinct.valid
  obtain ⟨out, h, -⟩ := temperature_similarities (alpha := 1 / 10 ^ 6) (K := fun t _ s r => fls t (1 / 10 ^ 6) (pairOf s r) true true) (by norm_num) (fun _ _ _ => rfl) Sim.mixed2_separated mixed2_spaced
    hdist (time := [3600, 10 ^ 6, 10 ^ 9]) (by norm_num) (by norm_num) (thr := 3600) (by norm_num)
  exact ⟨dist, out, hdist, h⟩

/-- Any field with fluid at the same temperature everywhere. -/
def evenFlow (S : Sim) : Flow (segmentList (bores S) (counts S) (ratios S)).length :=
  ⟨fun _ => -3, fun i j => if i = j then 3 else 0, 4, 1 / 10, 2, segmentLengths (bores S) (counts S) (ratios S)⟩

theorem evenFlow_passive {rb : ℝ} (hf : Fit S rb) : Passive (evenFlow S) fun _ => 1 := by
  refine ⟨fun i => by simp [evenFlow], fun θ => ?_, ⟨⟨0, segments_nonempty hf.upright hf.splits⟩, by norm_num [evenFlow]⟩⟩
  refine Finset.sum_nonneg fun i _ => ?_
  simp only [evenFlow, ite_mul, zero_mul, Finset.sum_ite_eq, Finset.mem_univ, if_true]
  nlinarith [mul_self_nonneg (θ i)]

example : ∃ dist out, mixedSimilarities (fun t p => fls t (1 / 10 ^ 6) p true true) Sim.mixed2 dist (evenFlow Sim.mixed2) [3600, 10 ^ 6, 10 ^ 9] 3600 = some out := by
  obtain ⟨dist, hdist⟩ := Sim.mixed2.dist_exists Sim.mixed2_separated.toDistinct.valid
  obtain ⟨out, h, -⟩ := mixed_similarities (alpha := 1 / 10 ^ 6) (K := fun t _ s r => fls t (1 / 10 ^ 6) (pairOf s r) true true) (by norm_num) (fun _ _ _ => rfl) Sim.mixed2_separated mixed2_spaced
    hdist (time := [3600, 10 ^ 6, 10 ^ 9]) (by norm_num) (by norm_num) (thr := 3600) (by norm_num) (evenFlow_passive (distinct_fit Sim.mixed2_separated.toDistinct)) (by norm_num [evenFlow]) rfl
  exact ⟨dist, out, h⟩

/-- The row of three boreholes in reverse. -/
theorem row3_congruent : Congruent Sim.row3 Sim.row3 (fun k => 2 - k) where
  size := rfl
  maps := fun k hk => by have hk : k < 3 := hk; show 2 - k < 3; omega
  inj := fun k hk l hl h => by have hk : k < 3 := hk; have hl : l < 3 := hl; omega
  tilt := fun _ _ => rfl
  H := fun _ _ => rfl
  D := fun _ _ => rfl
  rb := fun _ _ => rfl
  ns := fun _ _ => rfl
  rs := fun _ _ => rfl
  dist := fun k hk l hl => by
    have hk : k < 3 := hk
    have hl : l < 3 := hl
    interval_cases k <;> interval_cases l <;> norm_num [Sim.row3]

theorem row3_spaced : Spaced (3 / 40) (bores Sim.row3) := by
  rw [spaced_iff]
  intro k hk l hl hkl
  have hk : k < 3 := hk
  have hl : l < 3 := hl
  interval_cases k <;> interval_cases l <;> first | exact absurd rfl hkl | norm_num [Sim.row3]

/-- The outer boreholes of a row have the same heat extraction rates. -/
example : ∃ g Qs, temperatureDetailed (fun t _ s r => fls t (1 / 10 ^ 6) (pairOf s r) true true) (bores Sim.row3) (counts Sim.row3) (ratios Sim.row3) [3600, 10 ^ 6, 10 ^ 9] 3600 = some (g, Qs) ∧
    Qs.length = 3 ∧ ∀ Q ∈ Qs, ∀ a < 12, ∀ h h', Q ⟨a + Sim.row3.first 0, h⟩ = Q ⟨a + Sim.row3.first 2, h'⟩ := by
  obtain ⟨g, Qs, h1, h2, h3⟩ := temperature_symmetric (alpha := 1 / 10 ^ 6) (K := fun t _ s r => fls t (1 / 10 ^ 6) (pairOf s r) true true) (by norm_num) (fun _ _ _ => rfl)
    (identical_fit Sim.row3_uniform.toIdentical) row3_congruent row3_spaced (time := [3600, 10 ^ 6, 10 ^ 9]) (by norm_num) (by norm_num) (thr := 3600) (by norm_num)
  exact ⟨g, Qs, h1, h2, fun Q hQ a ha h h' => h3 Q hQ 0 (by norm_num [Sim.row3]) a ha h h'⟩

/-- The field with boreholes of different lengths, in the other order and displaced. -/
def mixed2' : Sim :=
  ⟨2, fun k => if k = 1 then ⟨100, 4, 3 / 40, 7, 20, 0, 0⟩ else ⟨150, 2, 3 / 40, 7, 25, 0, 0⟩, fun _ => 2, fun k => if k = 1 then [1 / 2, 1 / 2] else [1 / 3, 2 / 3], 1 / 10 ^ 6, 1 / 100⟩

theorem mixed2_congruent : Congruent Sim.mixed2 mixed2' (fun k => 1 - k) where
  size := rfl
  maps := fun k hk => by have hk : k < 2 := hk; show 1 - k < 2; omega
  inj := fun k hk l hl h => by have hk : k < 2 := hk; have hl : l < 2 := hl; omega
  tilt := fun k hk => by have hk : k < 2 := hk; interval_cases k <;> rfl
  H := fun k hk => by have hk : k < 2 := hk; interval_cases k <;> rfl
  D := fun k hk => by have hk : k < 2 := hk; interval_cases k <;> rfl
  rb := fun k hk => by have hk : k < 2 := hk; interval_cases k <;> rfl
  ns := fun _ _ => rfl
  rs := fun k hk => by have hk : k < 2 := hk; interval_cases k <;> rfl
  dist := fun k hk l hl => by
    have hk : k < 2 := hk
    have hl : l < 2 := hl
    interval_cases k <;> interval_cases l <;> norm_num [Sim.mixed2, mixed2']

example : ∃ g Qs Qs', temperatureDetailed (fun t _ s r => fls t (1 / 10 ^ 6) (pairOf s r) true true) (bores Sim.mixed2) (counts Sim.mixed2) (ratios Sim.mixed2) [3600, 10 ^ 6, 10 ^ 9] 3600 = some (g, Qs) ∧
    temperatureDetailed (fun t _ s r => fls t (1 / 10 ^ 6) (pairOf s r) true true) (bores mixed2') (counts mixed2') (ratios mixed2') [3600, 10 ^ 6, 10 ^ 9] 3600 = some (g, Qs') := by
  obtain ⟨g, Qs, Qs', h1, h2, -⟩ := temperature_congruent (alpha := 1 / 10 ^ 6) (K := fun t _ s r => fls t (1 / 10 ^ 6) (pairOf s r) true true) (by norm_num) (fun _ _ _ => rfl)
    (distinct_fit Sim.mixed2_separated.toDistinct) mixed2_congruent mixed2_spaced (time := [3600, 10 ^ 6, 10 ^ 9]) (by norm_num) (by norm_num) (thr := 3600) (by norm_num)
  exact ⟨g, Qs, Qs', h1, h2⟩

/-- With a mixed inlet temperature: the outer boreholes of a row have the same temperatures. -/
example : ∃ g Qs Ts, mixedDetailed (fun t _ s r => fls t (1 / 10 ^ 6) (pairOf s r) true true) (bores Sim.row3) (counts Sim.row3) (ratios Sim.row3) (evenFlow Sim.row3) [3600, 10 ^ 6, 10 ^ 9] 3600 =
      some (g, Qs, Ts) ∧ ∀ a < 12, ∀ h h', Ts ⟨a + Sim.row3.first 0, h⟩ = Ts ⟨a + Sim.row3.first 2, h'⟩ := by
  have hf := identical_fit Sim.row3_uniform.toIdentical
  have hidx : ∀ k l a b : ℕ, a < 12 → b < 12 → (a + Sim.row3.first k = b + Sim.row3.first l ↔ a = b ∧ k = l) := fun k l a b ha hb =>
    ⟨fun h => (Sim.row3.first_inj (k := k) (l := l) (a := a) (b := b) ha hb h).symm, fun h => by rw [h.1, h.2]⟩
  obtain ⟨g, Qs, Qs', Ts, Ts', h1, h2, -, -, -, h3⟩ := mixed_congruent (alpha := 1 / 10 ^ 6) (K := fun t _ s r => fls t (1 / 10 ^ 6) (pairOf s r) true true) (by norm_num) (fun _ _ _ => rfl)
    hf row3_congruent row3_spaced (time := [3600, 10 ^ 6, 10 ^ 9]) (by norm_num) (by norm_num) (thr := 3600) (by norm_num) (f := evenFlow Sim.row3) (f' := evenFlow Sim.row3)
    ⟨fun _ _ _ _ _ _ => rfl, fun k hk a ha l hl b hb p1 p2 p3 p4 => by
      have hk : k < 3 := hk
      have hl : l < 3 := hl
      simp only [evenFlow, Fin.mk.injEq, hidx k l a b ha hb, hidx (2 - k) (2 - l) a b ha hb]
      have : 2 - k = 2 - l ↔ k = l := by omega
      simp only [this], fun k hk a ha h h' => by
      have hk : k < 3 := hk
      show segmentLengths _ _ _ _ = segmentLengths _ _ _ _
      rw [hf.lengthAt hk ha, hf.lengthAt (k := 2 - k) (by show 2 - k < 3; omega) ha]
      exact (row3_congruent.seg_H hf hk ha).symm, rfl, rfl, rfl⟩
    (evenFlow_passive hf) (evenFlow_passive hf) (by norm_num [evenFlow]) rfl rfl
  have e : Ts = Ts' := by
    rw [h1] at h2
    exact (Prod.mk.inj (Prod.mk.inj (Option.some.inj h2)).2).2
  subst e
  exact ⟨g, Qs, Ts, h1, fun a ha h h' => h3 0 (by norm_num [Sim.row3]) a ha h h'⟩

end Verif.Gf
