import Verif.Sol.MirrorSolProps
import Verif.Gf.RefineLemmas

/-!
# Property C144 (solver): a mixed inlet temperature against a uniform temperature of the walls

`mift` and `ubwt` (`SolveModel.lean`) with the same response factors.  When the heat extracted from the wall `i` per degree of the wall `j` is the heat extracted from `j` per degree of `i`, the
rates of a mixed inlet temperature minimise an energy; it lies above that of the uniform temperature and below that of the rates extracted from uniform walls.
-/

noncomputable section

namespace Verif.Sol

open Finset

variable {n : ℕ}

/-- Specification: the heat extracted from the walls is a symmetric function of their temperatures, never negative when weighted by the differences to the inlet temperature; walls
at the inlet temperature give none; walls one degree warmer give `C`. -/
structure Symmetric (H : Fin n → ℝ) (f : Flow n) (C : ℝ) : Prop where
  symm : ∀ i j, f.aB i j = f.aB j i
  equilibrium : ∀ i, f.aIn i + ∑ j, f.aB i j = 0
  dissipative : ∀ θ : Fin n → ℝ, 0 ≤ ∑ i, θ i * ∑ j, f.aB i j * θ j
  total : ∑ i, ∑ j, f.aB i j = C
  pos : 0 < C
  lengths : f.Hb = H

/-- The rates extracted from uniform walls, with mean one. -/
def uniformRates (H : Fin n → ℝ) (f : Flow n) (C : ℝ) (i : Fin n) : ℝ := (∑ j, H j) / C * (∑ j, f.aB i j) / H i

/-- Energy of the heat extraction rates. -/
def energy (H : Fin n → ℝ) (F : Fin n → Fin n → ℝ) (Q : Fin n → ℝ) : ℝ := ∑ i, H i * Q i * ∑ j, F i j * Q j

section

variable {H : Fin n → ℝ} {f : Flow n} {C : ℝ} (hS : Symmetric H f C) (hks : 0 < f.ks) (hH : ∀ i, 0 < H i)
include hS hks hH

/-- Heat extracted from the walls in a step. -/
theorem Symmetric.heat {tl : List ℝ} {y : Fin n → Fin n → List ℝ} {past : List (Fin n → ℝ)} {p : ℕ} {x : MiftState n} (h : miftStep H f tl y past p = some x) :
    (∀ i, ∑ j, f.aB i j * (x.Tin - x.T j) = 2 * Real.pi * f.ks * (H i * x.Q i)) ∧ ∑ i, H i * x.Q i = ∑ i, H i := by
  have e1 := (mift_balance h hks.ne' (by rw [hS.lengths]; exact fun i => (hH i).ne') (fun _ => 1) (by rw [hS.lengths]; simp)).1
  refine ⟨fun i => ?_, by obtain ⟨_, _, _, _, _, h3, _⟩ := miftStep_spec h; exact h3⟩
  have := e1 i
  rw [hS.lengths] at this
  simp only [mul_sub, sum_sub_distrib, ← sum_mul]
  linear_combination (-1 : ℝ) * this + x.Tin * hS.equilibrium i

/-- A step, and the energies of its rates and of those extracted from uniform walls. -/
theorem Symmetric.bounds {tl : List ℝ} {y : Fin n → Fin n → List ℝ} {past : List (Fin n → ℝ)} {p : ℕ} {x : MiftState n} (h : miftStep H f tl y past p = some x)
    (hval : C * (x.Tin - x.g) = 2 * Real.pi * f.ks * ∑ i, H i) :
    ∑ i, H i * x.Q i * x.T i ≤ x.g * ∑ i, H i ∧
    ∀ F : Fin n → Fin n → ℝ, Reciprocal H F → (∀ Q : Fin n → ℝ, 0 ≤ energy H F Q) → (∀ i, x.T i = ∑ j, F i j * x.Q j) → x.g * ∑ i, H i ≤ energy H F (uniformRates H f C) := by
  obtain ⟨hq, hm⟩ := hS.heat hks hH h
  obtain ⟨c, hc⟩ : ∃ c, c = 2 * Real.pi * f.ks := ⟨_, rfl⟩
  have hc0 : 0 < c := by rw [hc]; have := Real.pi_pos; positivity
  rw [← hc] at hq hval
  obtain ⟨W, hW⟩ : ∃ W, W = ∑ i, H i := ⟨_, rfl⟩
  rw [← hW] at hm hval ⊢
  -- exchange with uniform walls
  have hone : ∑ i, ∑ j, f.aB i j * (x.Tin - x.T j) = c * W := by
    simp only [hq, ← mul_sum, hm]
  have hrow : ∑ j, (x.Tin - x.T j) * ∑ i, f.aB j i = c * W := by
    rw [← hone, sum_comm]
    refine sum_congr rfl fun j _ => ?_
    rw [mul_sum]
    exact sum_congr rfl fun i _ => by rw [hS.symm j i]; ring
  have hquad : ∑ i, (x.Tin - x.T i) * ∑ j, f.aB i j * (x.Tin - x.T j) = c * (x.Tin * W - ∑ i, H i * x.Q i * x.T i) := by
    rw [← hm, mul_sum, ← sum_sub_distrib, mul_sum]
    exact sum_congr rfl fun i _ => by rw [hq i]; ring
  have key : ∀ a : ℝ, ∑ i, (x.Tin - x.T i - a) * ∑ j, f.aB i j * (x.Tin - x.T j - a)
      = c * (x.Tin * W - ∑ i, H i * x.Q i * x.T i) - 2 * a * (c * W) + a ^ 2 * C := fun a => by
    have e : ∀ i, (x.Tin - x.T i - a) * ∑ j, f.aB i j * (x.Tin - x.T j - a)
        = (x.Tin - x.T i) * ∑ j, f.aB i j * (x.Tin - x.T j) - a * ((x.Tin - x.T i) * ∑ j, f.aB i j) - a * ∑ j, f.aB i j * (x.Tin - x.T j) + a ^ 2 * ∑ j, f.aB i j := fun i => by
      have : ∑ j, f.aB i j * (x.Tin - x.T j - a) = ∑ j, f.aB i j * (x.Tin - x.T j) - a * ∑ j, f.aB i j := by
        rw [mul_sum, ← sum_sub_distrib]
        exact sum_congr rfl fun j _ => by ring
      rw [this]; ring
    rw [sum_congr rfl fun i _ => e i, sum_add_distrib, sum_sub_distrib, sum_sub_distrib, ← mul_sum, ← mul_sum, ← mul_sum, hquad, hrow, hone, hS.total]
    ring
  have hC := hS.pos
  obtain ⟨a, ha⟩ : ∃ a, a = x.Tin - x.g := ⟨_, rfl⟩
  rw [← ha] at hval
  constructor
  · have h0 := hS.dissipative fun i => x.Tin - x.T i - a
    rw [key a] at h0
    have e : c * (x.Tin * W - ∑ i, H i * x.Q i * x.T i) - 2 * a * (c * W) + a ^ 2 * C = c * (x.g * W - ∑ i, H i * x.Q i * x.T i) := by
      rw [show x.g = x.Tin - a by rw [ha]; ring]
      linear_combination a * hval
    rw [e] at h0
    have := nonneg_of_mul_nonneg_right h0 hc0
    linarith
  · intro F hsym hpsd hT
    obtain ⟨P, hP⟩ : ∃ P, P = uniformRates H f C := ⟨_, rfl⟩
    have hP' : ∀ i, H i * P i = W / C * ∑ j, f.aB i j := fun i => by
      rw [hP, uniformRates, ← hW]
      have := (hH i).ne'
      field_simp
    rw [← hP]
    have hPm : ∑ i, H i * P i = W := by
      simp only [hP', ← mul_sum, hS.total]
      field_simp
    have h0 := hpsd fun i => x.Q i - P i
    have h1 := hS.dissipative fun i => x.Tin - x.T i - a
    rw [key a] at h1
    -- cross term
    have hcross : ∑ i, H i * P i * x.T i = x.Tin * W - a * W := by
      have e : ∑ i, H i * P i * x.T i = x.Tin * ∑ i, H i * P i - ∑ i, H i * P i * (x.Tin - x.T i) := by
        rw [mul_sum, ← sum_sub_distrib]
        exact sum_congr rfl fun i _ => by ring
      rw [e, hPm]
      have e2 : ∑ i, H i * P i * (x.Tin - x.T i) = W / C * ∑ j, (x.Tin - x.T j) * ∑ i, f.aB j i := by
        rw [mul_sum]
        exact sum_congr rfl fun i _ => by rw [hP' i]; ring
      rw [e2, hrow]
      have : W / C * (c * W) = a * W := by
        rw [← hval]; field_simp
      rw [this]
    have hen : energy H F (fun i => x.Q i - P i) = ∑ i, H i * x.Q i * x.T i - 2 * ∑ i, H i * P i * x.T i + energy H F P := by
      have hPQ : ∑ i, H i * x.Q i * ∑ j, F i j * P j = ∑ i, H i * P i * x.T i := by
        simp only [hT, mul_sum]
        rw [sum_comm]
        exact sum_congr rfl fun j _ => sum_congr rfl fun i _ => by linear_combination x.Q i * P j * hsym i j
      unfold energy
      have e : ∀ i, H i * (x.Q i - P i) * ∑ j, F i j * (x.Q j - P j)
          = H i * x.Q i * x.T i - H i * P i * x.T i - H i * x.Q i * ∑ j, F i j * P j + H i * P i * ∑ j, F i j * P j := fun i => by
        have : ∑ j, F i j * (x.Q j - P j) = x.T i - ∑ j, F i j * P j := by
          rw [hT i, ← sum_sub_distrib]
          exact sum_congr rfl fun j _ => by ring
        rw [this]; ring
      rw [sum_congr rfl fun i _ => e i, sum_add_distrib, sum_sub_distrib, sum_sub_distrib, hPQ]
      ring
    rw [hen, hcross] at h0
    have e : c * (x.Tin * W - ∑ i, H i * x.Q i * x.T i) - 2 * a * (c * W) + a ^ 2 * C = c * (x.g * W - ∑ i, H i * x.Q i * x.T i) := by
      rw [show x.g = x.Tin - a by rw [ha]; ring]
      linear_combination a * hval
    rw [e] at h1
    have h2 := nonneg_of_mul_nonneg_right h1 hc0
    have : x.Tin * W - a * W = x.g * W := by rw [ha]; ring
    rw [this] at h0
    linarith

end

/-- The first value of the g-function, and those under the threshold, come from the first step. -/
theorem mift_first_value {H : Fin n → ℝ} {f : Flow n} {F : Fin n → Fin n → ℝ → ℝ} {resp : List ℝ → Fin n → Fin n → List ℝ} (hF : Sampled F resp) {time : List ℝ} {thr : ℝ}
    (hpos : ∀ t ∈ time, 0 < t) (hs : time.Pairwise (· < ·)) (hthr : 0 < thr) {g : List ℝ} {Qs : List (Fin n → ℝ)} {Ts : Fin n → List ℝ} (h : mift H f resp time thr = some (g, Qs, Ts))
    {k : ℕ} {t : ℝ} (hk : time[k]? = some t) (hkt : k = 0 ∨ t ≤ thr) :
    ∃ x, miftStep H f (timeLong time thr) (resp (timeLong time thr)) [] 0 = some x ∧ g[k]? = some (underThreshold t thr * x.g) ∧
      ∀ i, x.T i = ∑ j, F i j (if t ≤ thr then thr else t) * x.Q j := by
  have hi := Gf.timeLong_increasing hpos hs hthr
  unfold mift at h
  dsimp only at h
  split at h
  · simp at h
  rename_i l hl
  have e := Option.some.inj h
  simp only [Prod.mk.injEq] at e
  obtain ⟨rfl, -, -⟩ := e
  obtain ⟨hlen, hst⟩ := miftLoop_spec hl
  have hy : resp (timeLong time thr) = fun i j => (timeLong time thr).map (F i j) := by funext i j; exact hF _ i j
  have hsle := hs.imp fun {a b : ℝ} (h : a < b) => h.le
  obtain ⟨ts, htl⟩ : ∃ ts, timeLong time thr = (if t ≤ thr then thr else t) :: ts := by
    unfold timeLong
    by_cases ht : t ≤ thr
    · have hp := (pLong_iff hsle thr k t hk).mpr ht
      rw [if_pos (by omega), if_pos ht]
      exact ⟨_, rfl⟩
    · have hk0 : k = 0 := hkt.resolve_right ht
      subst hk0
      have hp : ¬ pLong time thr > 0 := fun hp => ht ((pLong_iff hsle thr 0 t hk).mp hp)
      rw [if_neg hp, if_neg ht]
      cases time with
      | nil => simp at hk
      | cons τ ts => exact ⟨ts, by simpa using hk⟩
  obtain ⟨x, hx⟩ : ∃ x, l[0]? = some x := ⟨l[0]'(by rw [hlen, htl]; simp), List.getElem?_eq_getElem _⟩
  have s := hst 0 x hx
  rw [List.take_zero, List.map_nil] at s
  refine ⟨x, s, ?_, ?_⟩
  · unfold linearize underThreshold
    by_cases ht : t ≤ thr
    · have hp := (pLong_iff hsle thr k t hk).mpr ht
      have hlt : k < (time.take (pLong time thr)).length := by
        have := (List.getElem?_eq_some_iff.mp hk).1
        rw [List.length_take]; omega
      have htk : (time.take (pLong time thr))[k]? = some t := by rw [List.getElem?_take_of_lt hp, hk]
      rw [if_pos (by omega), if_pos ht, List.getElem?_append_left (by simpa using hlt), List.getElem?_map,
        htk, Option.map_some, List.headD_eq_head?_getD, List.head?_eq_getElem?, List.getElem?_map, hx]
      rw [Option.map_some, Option.getD_some]
      congr 1
      ring
    · have hk0 : k = 0 := hkt.resolve_right ht
      subst hk0
      have hp : ¬ pLong time thr > 0 := fun hp => ht ((pLong_iff hsle thr 0 t hk).mp hp)
      rw [if_neg hp, if_neg ht, List.getElem?_map, hx, Option.map_some, one_mul]
  · rw [hy, htl] at s
    rw [htl] at hi
    exact mift_first F hi s

/-- **C144** (first value).  With symmetric coefficients of the network the first value of the g-function with a mixed inlet temperature, and the values under the threshold, are not less than
those with a uniform temperature of the walls, and not more than those of the rates extracted from uniform walls. -/
theorem mift_order {H : Fin n → ℝ} (hn : 0 < n) (hH : ∀ i, 0 < H i) {f : Flow n} {C : ℝ} (hS : Symmetric H f C) (hks : 0 < f.ks) {F : Fin n → Fin n → ℝ → ℝ}
    {resp : List ℝ → Fin n → Fin n → List ℝ} (hF : Sampled F resp) (hsym : ∀ t, Reciprocal H fun i j => F i j t) (hdef : ∀ t, 0 < t → Definite H fun i j => F i j t)
    {time : List ℝ} {thr : ℝ} (hpos : ∀ t ∈ time, 0 < t) (hs : time.Pairwise (· < ·)) (hthr : 0 < thr)
    (hval : ∀ x, miftStep H f (timeLong time thr) (resp (timeLong time thr)) [] 0 = some x → C * (x.Tin - x.g) = 2 * Real.pi * f.ks * ∑ i, H i)
    {g g' : List ℝ} {Qs Qs' : List (Fin n → ℝ)} {Ts : Fin n → List ℝ} (h : mift H f resp time thr = some (g, Qs, Ts)) (h' : ubwt H resp time thr = some (g', Qs'))
    {k : ℕ} {t : ℝ} (hk : time[k]? = some t) (hkt : k = 0 ∨ t ≤ thr) :
    ∃ v v', g[k]? = some v ∧ g'[k]? = some v' ∧ v' ≤ v ∧
      v * ∑ i, H i ≤ underThreshold t thr * energy H (fun i j => F i j (if t ≤ thr then thr else t)) (uniformRates H f C) := by
  obtain ⟨x, hx, hg, hT⟩ := mift_first_value hF hpos hs hthr h hk hkt
  obtain ⟨T, Q, h1, -, h3, h4⟩ := ubwt_first_value hF hpos hs hthr h' hk hkt
  obtain ⟨τ, hτ⟩ : ∃ τ, τ = if t ≤ thr then thr else t := ⟨_, rfl⟩
  rw [← hτ] at hT h3 ⊢
  have ht := hpos t (List.mem_of_getElem? hk)
  have hτ0 : 0 < τ := by rw [hτ]; split_ifs <;> assumption
  have hu : 0 < underThreshold t thr := by unfold underThreshold; split_ifs <;> positivity
  have hW : 0 < ∑ i, H i := sum_pos (fun i _ => hH i) ⟨⟨0, hn⟩, mem_univ _⟩
  obtain ⟨b1, b2⟩ := hS.bounds hks hH hx (hval x hx)
  have hm := (hS.heat hks hH hx).2
  have hQ : ∑ i, H i * Q i = ∑ i, H i := h4
  have hleast := Gf.energy_least (hdef τ hτ0) (fun i j => hsym τ i j) h3 (P := x.Q) (by rw [hm, hQ])
  rw [hQ] at hleast
  simp only [← hT] at hleast
  refine ⟨_, underThreshold t thr * T, hg, ?_, ?_, ?_⟩
  · rw [h1]
    unfold underThreshold
    split_ifs
    · congr 1; ring
    · rw [one_mul]
  · exact mul_le_mul_of_nonneg_left (le_of_mul_le_mul_right (hleast.trans b1) hW) hu.le
  · rw [mul_assoc]
    refine mul_le_mul_of_nonneg_left (b2 _ (hsym τ) (fun P => ?_) hT) hu.le
    by_cases hP : P = 0
    · rw [hP]; simp [energy]
    · exact (hdef τ hτ0 P hP).le

end Verif.Sol
