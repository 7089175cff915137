import Verif.Sol.StableProps

/-!
# Property C142 (solver): the g-function with a mixed inlet temperature and the direction of the flow
-/

noncomputable section

namespace Verif.Sol

open Finset

variable {n : ℕ}

/-- Specification: two networks, of which the second has the flow of the first in the other direction.  Every heat source `i` stands for `w i` boreholes; the heat extracted
from the source `i` per degree of the wall `j` in one is the heat extracted from `j` per degree of the wall `i` in the other; neither extracts heat from walls at
the inlet temperature. -/
structure Mirror (w : Fin n → ℝ) (f f' : Flow n) : Prop where
  mcp : f'.mcp = f.mcp
  ks : f'.ks = f.ks
  Hb : f'.Hb = f.Hb
  transposed : ∀ i j, w i * f.aB i j = w j * f'.aB j i
  equilibrium : ∀ i, f.aIn i + ∑ j, f.aB i j = 0
  equilibrium' : ∀ i, f'.aIn i + ∑ j, f'.aB i j = 0

variable {H w : Fin n → ℝ} {f f' : Flow n}

/-- The exchange between any step of one network and any step of the other. -/
theorem Mirror.exchange (hm : Mirror w f f') (hks : f.ks ≠ 0) (hHb : ∀ i, f.Hb i ≠ 0) (hw : ∀ i, H i = w i * f.Hb i) {tl tl' : List ℝ} {y y' : Fin n → Fin n → List ℝ}
    {past past' : List (Fin n → ℝ)} {p p' : ℕ} {x x' : MiftState n} (h : miftStep H f tl y past p = some x) (h' : miftStep H f' tl' y' past' p' = some x') :
    ∑ i, H i * (x'.T i * x.Q i - x.T i * x'.Q i) = (∑ i, H i) * (x'.Tin - x.Tin) := by
  have e1 := (mift_balance h hks hHb w hw).1
  have e2 := (mift_balance h' (hm.ks ▸ hks) (by rw [hm.Hb]; exact hHb) w (by rw [hm.Hb]; exact hw)).1
  rw [hm.ks, hm.Hb] at e2
  have m1 : ∑ i, H i * x.Q i = ∑ i, H i := by obtain ⟨_, _, _, _, _, h3, _⟩ := miftStep_spec h; exact h3
  have m2 : ∑ i, H i * x'.Q i = ∑ i, H i := by obtain ⟨_, _, _, _, _, h3, _⟩ := miftStep_spec h'; exact h3
  have a1 : ∀ i, ∑ j, f.aB i j * (x.T j - x.Tin) = -(2 * Real.pi * f.ks * f.Hb i * x.Q i) := fun i => by
    rw [← e1 i, show f.aIn i = -∑ j, f.aB i j by linarith [hm.equilibrium i]]
    simp only [mul_sub, sum_sub_distrib, ← sum_mul]
    ring
  have a2 : ∀ i, ∑ j, f'.aB i j * (x'.T j - x'.Tin) = -(2 * Real.pi * f.ks * f.Hb i * x'.Q i) := fun i => by
    rw [← e2 i, show f'.aIn i = -∑ j, f'.aB i j by linarith [hm.equilibrium' i]]
    simp only [mul_sub, sum_sub_distrib, ← sum_mul]
    ring
  have key : ∑ i, w i * (x'.T i - x'.Tin) * ∑ j, f.aB i j * (x.T j - x.Tin) = ∑ j, w j * (x.T j - x.Tin) * ∑ i, f'.aB j i * (x'.T i - x'.Tin) := by
    simp only [mul_sum]
    rw [sum_comm]
    exact sum_congr rfl fun j _ => sum_congr rfl fun i _ => by linear_combination (x'.T i - x'.Tin) * (x.T j - x.Tin) * hm.transposed i j
  simp only [a1, a2] at key
  have hc : (2 * Real.pi * f.ks) ≠ 0 := by have := Real.pi_ne_zero; positivity
  have l1 : ∀ i, w i * (x'.T i - x'.Tin) * -(2 * Real.pi * f.ks * f.Hb i * x.Q i) = -(2 * Real.pi * f.ks) * (H i * x'.T i * x.Q i - x'.Tin * (H i * x.Q i)) := fun i => by
    rw [hw i]; ring
  have l2 : ∀ i, w i * (x.T i - x.Tin) * -(2 * Real.pi * f.ks * f.Hb i * x'.Q i) = -(2 * Real.pi * f.ks) * (H i * x.T i * x'.Q i - x.Tin * (H i * x'.Q i)) := fun i => by
    rw [hw i]; ring
  simp only [l1, l2, ← mul_sum, sum_sub_distrib, m1, m2] at key
  have key' := mul_left_cancel₀ (neg_ne_zero.mpr hc) key
  have : ∑ i, H i * (x'.T i * x.Q i - x.T i * x'.Q i) = ∑ i, H i * x'.T i * x.Q i - ∑ i, H i * x.T i * x'.Q i := by
    rw [← sum_sub_distrib]
    exact sum_congr rfl fun i _ => by ring
  rw [this]
  linarith

/-- The wall temperatures of the first step. -/
theorem mift_first (F : Fin n → Fin n → ℝ → ℝ) {τ : ℝ} {ts : List ℝ} (hi : Increasing 0 (τ :: ts)) {x : MiftState n}
    (h : miftStep H f (τ :: ts) (fun i j => (τ :: ts).map (F i j)) [] 0 = some x) : ∀ i, x.T i = ∑ j, F i j τ * x.Q j := by
  obtain ⟨hdt, T0, hs, h1, -, -⟩ := miftStep_spec h
  obtain ⟨a, R, hR, hT⟩ := stepData_spec hs
  intro i
  have hh : ∀ j, hdt i j = F i j τ := fun j => by
    have := a i j
    rw [show (diffs (τ :: ts)).getD 0 0 = τ from rfl, interp_first hi] at this
    exact (Option.some.inj this).symm
  have hR' : R = fun _ => [0] := funext fun j => by
    have := hR j
    rw [show (τ :: ts).take (0 + 1) = [τ] from rfl] at this
    have c := reconstruct_const 0 τ [] ⟨hi.1, trivial⟩
    simp only [List.length_cons, List.length_nil, zero_add, List.replicate_one, List.map_nil, List.nil_append] at c this
    rw [c] at this
    exact (Option.some.inj this).symm
  have hT0 : T0 i = 0 := by
    have := hT i
    rw [hR'] at this
    unfold superpose at this
    rw [if_pos (by simp)] at this
    rw [← Option.some.inj this]
    simp [diffs, diffsFrom]
  rw [h1 i, hT0, zero_add]
  exact sum_congr rfl fun j _ => by rw [hh]

/-- With equal inlet temperatures the values differ by the difference of the resistances. -/
theorem Mirror.value (hm : Mirror w f f') {tl : List ℝ} {y : Fin n → Fin n → List ℝ} {past past' : List (Fin n → ℝ)} {p p' : ℕ} {x x' : MiftState n}
    (h : miftStep H f tl y past p = some x) (h' : miftStep H f' tl y past' p' = some x') (he : x'.Tin = x.Tin) : x'.g = x.g + 2 * Real.pi * f.ks * (f.R - f'.R) := by
  obtain ⟨_, _, _, _, _, _, h4⟩ := miftStep_spec h
  obtain ⟨_, _, _, _, _, _, h4'⟩ := miftStep_spec h'
  rw [h4, h4']
  unfold effective
  rw [he, hm.mcp, hm.ks]
  ring

/-- **C142** (first value).  The first values of the g-function, and those under the threshold, differ in the two directions of flow only by the difference of the resistances, at
any times. -/
theorem mift_mirror_first (hm : Mirror w f f') (hks : f.ks ≠ 0) (hHb : ∀ i, f.Hb i ≠ 0) (hw : ∀ i, H i = w i * f.Hb i) (hW : ∑ i, H i ≠ 0) {F : Fin n → Fin n → ℝ → ℝ}
    {resp : List ℝ → Fin n → Fin n → List ℝ} (hF : Sampled F resp) (hsym : ∀ t, Reciprocal H fun i j => F i j t) {time : List ℝ} {thr : ℝ} (hi : Increasing 0 (timeLong time thr))
    (hs : time.Pairwise (· < ·)) {g g' : List ℝ} {Qs Qs' : List (Fin n → ℝ)} {Ts Ts' : Fin n → List ℝ} (h : mift H f resp time thr = some (g, Qs, Ts))
    (h' : mift H f' resp time thr = some (g', Qs', Ts')) {k : ℕ} {t : ℝ} (hk : time[k]? = some t) (hkt : k = 0 ∨ t ≤ thr) :
    ∃ v, g[k]? = some v ∧ g'[k]? = some (v + underThreshold t thr * (2 * Real.pi * f.ks * (f.R - f'.R))) := by
  unfold mift at h h'
  dsimp only at h h'
  split at h
  · simp at h
  rename_i l hl
  split at h'
  · simp at h'
  rename_i l' hl'
  have e := Option.some.inj h
  have e' := Option.some.inj h'
  simp only [Prod.mk.injEq] at e e'
  obtain ⟨rfl, -, -⟩ := e
  obtain ⟨rfl, -, -⟩ := e'
  obtain ⟨hlen, hst⟩ := miftLoop_spec hl
  obtain ⟨hlen', hst'⟩ := miftLoop_spec hl'
  have hy : resp (timeLong time thr) = fun i j => (timeLong time thr).map (F i j) := by funext i j; exact hF _ i j
  obtain ⟨τ, ts, htl⟩ : ∃ τ ts, timeLong time thr = τ :: ts := by
    unfold timeLong
    split_ifs
    · exact ⟨_, _, rfl⟩
    · cases time with
      | nil => simp at hk
      | cons τ ts => exact ⟨τ, ts, rfl⟩
  rw [htl] at hlen hlen' hi
  obtain ⟨x, hx⟩ : ∃ x, l[0]? = some x := ⟨l[0]'(by rw [hlen]; simp), List.getElem?_eq_getElem _⟩
  obtain ⟨x', hx'⟩ : ∃ x, l'[0]? = some x := ⟨l'[0]'(by rw [hlen']; simp), List.getElem?_eq_getElem _⟩
  have s := hst 0 x hx
  have s' := hst' 0 x' hx'
  rw [hy, htl, List.take_zero, List.map_nil] at s s'
  have t1 := mift_first F hi s
  have t2 := mift_first F hi s'
  have ex := hm.exchange hks hHb hw s s'
  have h0 : ∑ i, H i * (x'.T i * x.Q i - x.T i * x'.Q i) = 0 := by
    simp only [mul_sub, sum_sub_distrib, sub_eq_zero]
    simp only [t1, t2, sum_mul, mul_sum]
    rw [sum_comm]
    exact sum_congr rfl fun j _ => sum_congr rfl fun i _ => by linear_combination x'.Q j * x.Q i * hsym τ i j
  rw [h0] at ex
  have hT := (mul_eq_zero.mp ex.symm).resolve_left hW
  have hv := hm.value s s' (by linarith)
  have hsle := hs.imp fun {a b : ℝ} (h : a < b) => h.le
  unfold linearize underThreshold
  by_cases ht : t ≤ thr
  · have hp := (pLong_iff hsle thr k t hk).mpr ht
    have hlt : k < (time.take (pLong time thr)).length := by
      have := (List.getElem?_eq_some_iff.mp hk).1
      rw [List.length_take]; omega
    have htk : (time.take (pLong time thr))[k]? = some t := by rw [List.getElem?_take_of_lt hp, hk]
    rw [if_pos (by omega), if_pos (by omega), if_pos ht, List.getElem?_append_left (by simpa using hlt), List.getElem?_append_left (by simpa using hlt), List.getElem?_map, List.getElem?_map,
      htk, Option.map_some, Option.map_some, List.headD_eq_head?_getD, List.headD_eq_head?_getD, List.head?_eq_getElem?, List.head?_eq_getElem?, List.getElem?_map, List.getElem?_map, hx, hx']
    refine ⟨_, rfl, ?_⟩
    rw [Option.map_some, Option.map_some, Option.getD_some, Option.getD_some, hv]
    congr 1
    ring
  · have hk0 : k = 0 := hkt.resolve_right ht
    subst hk0
    have hp : ¬ pLong time thr > 0 := fun hp => ht ((pLong_iff hsle thr 0 t hk).mp hp)
    rw [if_neg hp, if_neg hp, if_neg ht, List.getElem?_map, List.getElem?_map, hx, hx']
    exact ⟨_, rfl, by rw [Option.map_some, hv, one_mul]⟩

/-- The wall temperatures on a uniform grid as a superposition of pulses. -/
theorem mift_pulses (F : Fin n → Fin n → ℝ → ℝ) {d : ℝ} (hd : 0 < d) (m : ℕ) {l : List (MiftState n)}
    (h : miftLoop H f (d :: uniform d d m) (fun i j => (d :: uniform d d m).map (F i j)) (m + 1) = some l) {X : ℕ → MiftState n} (hX : ∀ p ≤ m, l[p]? = some (X p)) {p : ℕ} (hp : p ≤ m)
    (i : Fin n) : (X p).T i = ∑ j, ∑ k ∈ range (p + 1), (X k).Q j * pulseAt (F i j) d (p - k) := by
  obtain ⟨hlen, -⟩ := miftLoop_spec h
  rw [mift_superposition F hd m h hp (hX p hp) i]
  refine sum_congr rfl fun j _ => ?_
  obtain ⟨qs, hqs⟩ : ∃ qs, qs = (l.take (p + 1)).map fun z => z.Q j := ⟨_, rfl⟩
  have hl : qs.length = p + 1 := by rw [hqs]; simp [hlen]; omega
  rw [← hqs]
  have := duhamel_pulses (F i j) d qs 0 0 (p + 1) (by omega)
  rw [uniform, zero_add, zero_add, hl] at this
  push_cast at this
  rw [this, neg_zero, zero_mul, zero_add]
  refine sum_congr rfl fun k hk => ?_
  have hk' := mem_range.mp hk
  congr 1
  rw [hqs, List.getD_eq_getElem?_getD, List.getElem?_map, List.getElem?_take_of_lt hk', hX k (by omega)]
  rfl

open PowerSeries in
/-- Reciprocity of the superpositions of two histories of heat extraction rates. -/
theorem pulses_reciprocal {c : Fin n → Fin n → ℕ → ℝ} (hsym : ∀ k, Reciprocal H fun i j => c i j k) {T S P Q : ℕ → Fin n → ℝ} {m : ℕ}
    (hT : ∀ p ≤ m, ∀ i, T p i = ∑ j, ∑ k ∈ range (p + 1), Q k j * c i j (p - k)) (hS : ∀ p ≤ m, ∀ i, S p i = ∑ j, ∑ k ∈ range (p + 1), P k j * c i j (p - k)) :
    ∑ x ∈ antidiagonal m, ∑ i, H i * (S x.2 i * Q x.1 i) = ∑ x ∈ antidiagonal m, ∑ i, H i * (T x.1 i * P x.2 i) := by
  have hconv : ∀ (V U : ℕ → Fin n → ℝ), (∀ p ≤ m, ∀ i, V p i = ∑ j, ∑ k ∈ range (p + 1), U k j * c i j (p - k)) → ∀ p ≤ m, ∀ i,
      V p i = coeff p (∑ j, PowerSeries.mk (fun k => U k j) * PowerSeries.mk (c i j)) := fun V U hV p hp i => by
    rw [hV p hp i, map_sum]
    refine sum_congr rfl fun j _ => ?_
    rw [coeff_mul, Nat.sum_antidiagonal_eq_sum_range_succ (fun a b => coeff a (PowerSeries.mk fun k => U k j) * coeff b (PowerSeries.mk (c i j)))]
    simp only [coeff_mk]
  have hform : ∀ (V U W : ℕ → Fin n → ℝ), (∀ p ≤ m, ∀ i, V p i = ∑ j, ∑ k ∈ range (p + 1), U k j * c i j (p - k)) →
      ∑ x ∈ antidiagonal m, ∑ i, H i * (V x.1 i * W x.2 i) = ∑ i, ∑ j, H i * coeff m (PowerSeries.mk (c i j) * (PowerSeries.mk (fun k => U k j) * PowerSeries.mk fun k => W k i)) := fun V U W hV => by
    rw [sum_comm]
    refine sum_congr rfl fun i _ => ?_
    rw [← mul_sum, ← mul_sum]
    congr 1
    have e : ∑ j, coeff m (PowerSeries.mk (c i j) * (PowerSeries.mk (fun k => U k j) * PowerSeries.mk fun k => W k i))
        = coeff m ((∑ j, PowerSeries.mk (fun k => U k j) * PowerSeries.mk (c i j)) * PowerSeries.mk fun k => W k i) := by
      rw [sum_mul, map_sum]
      exact sum_congr rfl fun j _ => by rw [mul_comm (PowerSeries.mk fun k => U k j) (PowerSeries.mk (c i j)), mul_assoc]
    rw [e, coeff_mul]
    refine sum_congr rfl fun x hx => ?_
    have := mem_antidiagonal.mp hx
    rw [hconv V U hV x.1 (by omega) i, coeff_mk]
  have hswap : ∑ x ∈ antidiagonal m, ∑ i, H i * (S x.2 i * Q x.1 i) = ∑ x ∈ antidiagonal m, ∑ i, H i * (S x.1 i * Q x.2 i) :=
    Nat.sum_antidiagonal_swap (f := fun x : ℕ × ℕ => ∑ i, H i * (S x.1 i * Q x.2 i))
  rw [hswap, hform S P Q hS, hform T Q P hT, sum_comm]
  refine sum_congr rfl fun j _ => sum_congr rfl fun i _ => ?_
  rw [coeff_mul, coeff_mul, mul_sum, mul_sum]
  refine sum_congr rfl fun x _ => ?_
  rw [coeff_mk, coeff_mk, mul_comm (PowerSeries.mk fun p => P p j), ← mul_assoc, ← mul_assoc, hsym x.1 i j]

/-- Numbers with the same sums up to every rank are the same. -/
theorem eq_of_sums {a b : ℕ → ℝ} {m : ℕ} (h : ∀ k ≤ m, ∑ p ∈ range (k + 1), a p = ∑ p ∈ range (k + 1), b p) : ∀ k ≤ m, a k = b k := fun k hk => by
  have h1 := h k hk
  rw [sum_range_succ, sum_range_succ] at h1
  cases k with
  | zero => simpa using h1
  | succ k => linarith [h k (by omega)]

/-- **C142** (evenly spaced times).  On a uniform grid of times all the values of the g-function differ in the two directions of flow only by the difference of the resistances. -/
theorem mift_mirror_uniform (hm : Mirror w f f') (hks : f.ks ≠ 0) (hHb : ∀ i, f.Hb i ≠ 0) (hw : ∀ i, H i = w i * f.Hb i) (hW : ∑ i, H i ≠ 0) {F : Fin n → Fin n → ℝ → ℝ}
    {resp : List ℝ → Fin n → Fin n → List ℝ} (hF : Sampled F resp) (hsym : ∀ t, Reciprocal H fun i j => F i j t) {d : ℝ} (hd : 0 < d) (m : ℕ) {thr : ℝ} (hthr : thr ≤ d)
    {g g' : List ℝ} {Qs Qs' : List (Fin n → ℝ)} {Ts Ts' : Fin n → List ℝ} (h : mift H f resp (d :: uniform d d m) thr = some (g, Qs, Ts))
    (h' : mift H f' resp (d :: uniform d d m) thr = some (g', Qs', Ts')) :
    g'.length = g.length ∧ ∀ (k : ℕ) (v : ℝ), g[k]? = some v → g'[k]? = some (v + 2 * Real.pi * f.ks * (f.R - f'.R)) := by
  have hinc := uniform_increasing hd d m
  have htl : timeLong (d :: uniform d d m) thr = d :: uniform d d m := by
    rcases hthr.lt_or_eq with hlt | rfl
    · have : pLong (d :: uniform d d m) thr = 0 := by simp [pLong, not_le.mpr hlt]
      unfold timeLong
      rw [this]
      simp
    · have : pLong (thr :: uniform thr thr m) thr = 1 := by
        unfold pLong
        rw [List.takeWhile_cons, if_pos (by simp)]
        cases m with
        | zero => simp [uniform]
        | succ m => simp [uniform, hd]
      unfold timeLong
      rw [this]
      simp
  unfold mift at h h'
  dsimp only at h h'
  split at h
  · simp at h
  rename_i l hl
  split at h'
  · simp at h'
  rename_i l' hl'
  have e := Option.some.inj h
  have e' := Option.some.inj h'
  simp only [Prod.mk.injEq] at e e'
  obtain ⟨rfl, -, -⟩ := e
  obtain ⟨rfl, -, -⟩ := e'
  have hy : resp (d :: uniform d d m) = fun i j => (d :: uniform d d m).map (F i j) := by funext i j; exact hF _ i j
  rw [htl, hy, show (d :: uniform d d m).length = m + 1 by rw [List.length_cons, uniform_length]] at hl hl'
  obtain ⟨hlen, hst⟩ := miftLoop_spec hl
  obtain ⟨hlen', hst'⟩ := miftLoop_spec hl'
  obtain ⟨X, hX⟩ : ∃ X : ℕ → MiftState n, ∀ p ≤ m, l[p]? = some (X p) :=
    ⟨fun p => l.getD p ⟨0, 0, 0, 0⟩, fun p hp => by beta_reduce; rw [List.getD_eq_getElem?_getD, List.getElem?_eq_getElem (by omega)]; rfl⟩
  obtain ⟨X', hX'⟩ : ∃ X : ℕ → MiftState n, ∀ p ≤ m, l'[p]? = some (X p) :=
    ⟨fun p => l'.getD p ⟨0, 0, 0, 0⟩, fun p hp => by beta_reduce; rw [List.getD_eq_getElem?_getD, List.getElem?_eq_getElem (by omega)]; rfl⟩
  have hTin : ∀ p ≤ m, (X' p).Tin = (X p).Tin := by
    refine eq_of_sums fun k hk => ?_
    have hrec := pulses_reciprocal (H := H) (c := fun i j => pulseAt (F i j) d) (T := fun p => (X p).T) (S := fun p => (X' p).T) (P := fun p => (X' p).Q) (Q := fun p => (X p).Q) (m := k)
      (fun k i j => by
        have hst : ∀ k, H i * stepAt (F i j) d k = H j * stepAt (F j i) d k := fun k => by
          unfold stepAt
          split_ifs
          · ring
          · exact hsym _ i j
        unfold pulseAt
        rw [mul_sub, mul_sub, hst, hst])
      (fun p hp i => mift_pulses F hd m hl hX (by omega) i) fun p hp i => mift_pulses F hd m hl' hX' (by omega) i
    have hex : ∑ x ∈ antidiagonal k, (∑ i, H i) * ((X' x.2).Tin - (X x.1).Tin) = 0 := by
      rw [← sub_eq_zero.mpr hrec, ← sum_sub_distrib]
      refine sum_congr rfl fun x hx => ?_
      have := mem_antidiagonal.mp hx
      rw [← hm.exchange hks hHb hw (hst x.1 _ (hX _ (by omega))) (hst' x.2 _ (hX' _ (by omega))), ← sum_sub_distrib]
      exact sum_congr rfl fun i _ => by ring
    rw [← mul_sum, sum_sub_distrib, mul_eq_zero] at hex
    have hz := sub_eq_zero.mp (hex.resolve_left hW)
    have hsw : ∑ x ∈ antidiagonal k, (X' x.2).Tin = ∑ x ∈ antidiagonal k, (X' x.1).Tin := Nat.sum_antidiagonal_swap (f := fun x : ℕ × ℕ => (X' x.1).Tin)
    rw [hsw, Nat.sum_antidiagonal_eq_sum_range_succ (fun a _ => (X' a).Tin), Nat.sum_antidiagonal_eq_sum_range_succ (fun a _ => (X a).Tin)] at hz
    exact hz
  -- the linearization changes nothing
  have hlin : ∀ l : List (MiftState n), l.length = m + 1 → linearize (d :: uniform d d m) thr (l.map MiftState.g) = l.map MiftState.g := fun l hlen => by
    unfold linearize
    split_ifs with hp
    · have hlt : thr = d := by
        refine le_antisymm hthr (not_lt.mp fun hlt => ?_)
        simp [pLong, not_le.mpr hlt] at hp
      subst hlt
      have h1 : pLong (thr :: uniform thr thr m) thr = 1 := by
        unfold pLong
        rw [List.takeWhile_cons, if_pos (by simp)]
        cases m with
        | zero => simp [uniform]
        | succ m => simp [uniform, hd]
      rw [h1]
      cases l with
      | nil => simp at hlen
      | cons x l =>
        simp only [List.take_succ_cons, List.take_zero, List.map_cons, List.map_nil, List.headD_cons, List.tail_cons, List.singleton_append]
        rw [mul_div_assoc, div_self hd.ne', mul_one]
    · rfl
  rw [hlin l hlen, hlin l' hlen']
  refine ⟨by simp [hlen, hlen'], fun p v hv => ?_⟩
  have hp : p ≤ m := by
    have := (List.getElem?_eq_some_iff.mp hv).1
    rw [List.length_map, hlen] at this
    omega
  rw [List.getElem?_map, hX p hp, Option.map_some, Option.some.injEq] at hv
  rw [List.getElem?_map, hX' p hp, Option.map_some, hm.value (hst p _ (hX p hp)) (hst' p _ (hX' p hp)) (hTin p hp), hv]

end Verif.Sol
