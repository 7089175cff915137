import Verif.Sol.MirrorSolProps

/-!
# Property C145 (solver): the g-function is the response of the field to a unit step of the load
-/

noncomputable section

namespace Verif.Sol

open Finset

variable {n : ℕ}

/-! ### Specification -/

/-- Change of a quantity from one time step to the next; it is zero before the first. -/
def change (a : ℕ → ℝ) (l : ℕ) : ℝ := a l - if l = 0 then 0 else a (l - 1)

/-- Temperature at the source `i` at the end of the time step `k`, when the source `j` has the rate `q l j` during the time step `l`, all of duration `d`: every change of every rate acts
since the start of its time step. -/
def felt (F : Fin n → Fin n → ℝ → ℝ) (d : ℝ) (q : ℕ → Fin n → ℝ) (k : ℕ) (i : Fin n) : ℝ :=
  ∑ j, ∑ l ∈ range (k + 1), change (fun l => q l j) l * F i j ((k + 1 - l : ℕ) * d)

/-- Specification: a history of the field with the same temperature `T k` at all sources at the end of each of the time steps `k ≤ m`, with the mean rates `P k`. -/
structure WallHistory (H : Fin n → ℝ) (F : Fin n → Fin n → ℝ → ℝ) (d : ℝ) (m : ℕ) (P : ℕ → ℝ) (q : ℕ → Fin n → ℝ) (T : ℕ → ℝ) : Prop where
  load : ∀ k ≤ m, ∑ i, H i * q k i = P k * ∑ i, H i
  walls : ∀ k ≤ m, ∀ i, T k = felt F d q k i

/-- Specification: a history of the field and its network with the inlet temperature `Tin k` and the wall temperatures `T k i`, with the mean rates `P k`; the heat that the fluid extracts from
the walls is that of the rates. -/
structure InletHistory (H : Fin n → ℝ) (f : Flow n) (F : Fin n → Fin n → ℝ → ℝ) (d : ℝ) (m : ℕ) (P : ℕ → ℝ) (q T : ℕ → Fin n → ℝ) (Tin : ℕ → ℝ) : Prop where
  load : ∀ k ≤ m, ∑ i, H i * q k i = P k * ∑ i, H i
  walls : ∀ k ≤ m, ∀ i, T k i = felt F d q k i
  pipes : ∀ k ≤ m, ∀ i, f.aIn i * Tin k + ∑ j, f.aB i j * T k j = -(2 * Real.pi * f.ks * f.Hb i * q k i)

/-! ### Linear systems with memory -/

open PowerSeries in
theorem conv_coeff (a b : ℕ → ℝ) (k : ℕ) : ∑ l ∈ range (k + 1), a l * b (k - l) = coeff k (PowerSeries.mk a * PowerSeries.mk b) := by
  rw [coeff_mul, Nat.sum_antidiagonal_eq_sum_range_succ (fun i j => coeff i (PowerSeries.mk a) * coeff j (PowerSeries.mk b))]
  simp only [coeff_mk]

open PowerSeries in
theorem mk_change (a : ℕ → ℝ) : PowerSeries.mk (change a) = (1 - X) * PowerSeries.mk a := by
  ext k
  rw [sub_mul, one_mul, map_sub, coeff_mk, coeff_mk]
  unfold change
  cases k with
  | zero => simp
  | succ k => rw [coeff_succ_X_mul, coeff_mk, if_neg (Nat.succ_ne_zero k), Nat.add_sub_cancel]

theorem change_sum (a : ℕ → ℝ) (k : ℕ) : ∑ l ∈ range (k + 1), change a l = a k := by
  induction k with
  | zero => simp [change]
  | succ k ih => rw [sum_range_succ, ih]; simp [change]

open PowerSeries in
theorem felt_pulses (F : Fin n → Fin n → ℝ → ℝ) (d : ℝ) (q : ℕ → Fin n → ℝ) (k : ℕ) (i : Fin n) :
    felt F d q k i = ∑ j, ∑ l ∈ range (k + 1), q l j * pulseAt (F i j) d (k - l) := by
  unfold felt
  refine sum_congr rfl fun j _ => ?_
  have e : ∑ l ∈ range (k + 1), change (fun l => q l j) l * F i j ((k + 1 - l : ℕ) * d)
      = ∑ l ∈ range (k + 1), change (fun l => q l j) l * (fun u : ℕ => F i j ((u + 1 : ℕ) * d)) (k - l) := sum_congr rfl fun l hl => by
    have := mem_range.mp hl
    beta_reduce
    rw [show k + 1 - l = k - l + 1 by omega]
  have hp : PowerSeries.mk (pulseAt (F i j) d) = (1 - X) * PowerSeries.mk fun u : ℕ => F i j ((u + 1 : ℕ) * d) := by
    rw [← mk_change]
    congr 1
    funext u
    unfold pulseAt change stepAt
    rw [if_neg (Nat.succ_ne_zero u)]
    cases u with
    | zero => simp
    | succ u => simp
  rw [e, conv_coeff (change fun l => q l j) (fun u : ℕ => F i j ((u + 1 : ℕ) * d)), conv_coeff (fun l => q l j) (pulseAt (F i j) d), hp, mk_change]
  congr 1
  ring

open PowerSeries in
/-- The superposition of the step responses solves the system for any load. -/
theorem memory_exists {ι κ : Type*} [Fintype ι] {C : κ → ι → ℕ → ℝ} {b : κ → ℝ} {m : ℕ} {Y : ℕ → ι → ℝ} (hY : ∀ k ≤ m, ∀ r, ∑ s, ∑ l ∈ range (k + 1), Y l s * C r s (k - l) = b r)
    (P : ℕ → ℝ) : ∀ k ≤ m, ∀ r, ∑ s, ∑ l ∈ range (k + 1), (∑ a ∈ range (l + 1), change P a * Y (l - a) s) * C r s (k - l) = P k * b r := fun k hk r => by
  have e : ∀ s, ∑ l ∈ range (k + 1), (∑ a ∈ range (l + 1), change P a * Y (l - a) s) * C r s (k - l)
      = coeff k (PowerSeries.mk (change P) * (PowerSeries.mk (fun l => Y l s) * PowerSeries.mk (C r s))) := fun s => by
    rw [← mul_assoc, conv_coeff (fun l => ∑ a ∈ range (l + 1), change P a * Y (l - a) s) (C r s)]
    congr 2
    ext l
    rw [coeff_mk, ← conv_coeff (change P) fun l => Y l s]
  simp only [e]
  rw [← map_sum, ← mul_sum, coeff_mul, Nat.sum_antidiagonal_eq_sum_range_succ
    (fun i j => coeff i (PowerSeries.mk (change P)) * coeff j (∑ s, PowerSeries.mk (fun l => Y l s) * PowerSeries.mk (C r s))), ← change_sum P k, sum_mul]
  refine sum_congr rfl fun l hl => ?_
  have := mem_range.mp hl
  rw [coeff_mk, map_sum, ← hY (k - l) (by omega) r]
  congr 1
  exact sum_congr rfl fun s _ => (conv_coeff (fun l => Y l s) (C r s) _).symm

/-- A system that is regular at every step has one solution. -/
theorem memory_unique {ι κ : Type*} [Fintype ι] {C : κ → ι → ℕ → ℝ} {m : ℕ} {X Z : ℕ → ι → ℝ}
    (h : ∀ k ≤ m, ∀ r, ∑ s, ∑ l ∈ range (k + 1), X l s * C r s (k - l) = ∑ s, ∑ l ∈ range (k + 1), Z l s * C r s (k - l)) (hinj : ∀ D : ι → ℝ, (∀ r, ∑ s, D s * C r s 0 = 0) → D = 0) :
    ∀ k ≤ m, X k = Z k := by
  intro k
  induction k using Nat.strong_induction_on with
  | _ k ih =>
    intro hk
    have := hinj (fun s => X k s - Z k s) fun r => by
      have e := h k hk r
      rw [← sub_eq_zero, ← sum_sub_distrib] at e
      rw [← e]
      refine sum_congr rfl fun s _ => ?_
      rw [sum_range_succ, sum_range_succ, Nat.sub_self, sum_congr rfl fun l hl => by rw [ih l (mem_range.mp hl) (by have := mem_range.mp hl; omega)]]
      ring
    funext s
    have := congrFun this s
    simp only [Pi.zero_apply] at this
    linarith

/-! ### Grids of equal time steps -/

theorem uniform_long {d : ℝ} (hd : 0 < d) (m : ℕ) {thr : ℝ} (hthr : thr ≤ d) : timeLong (d :: uniform d d m) thr = d :: uniform d d m ∧
    ∀ x : List ℝ, x.length = m + 1 → linearize (d :: uniform d d m) thr x = x := by
  rcases hthr.lt_or_eq with hlt | rfl
  · have : pLong (d :: uniform d d m) thr = 0 := by simp [pLong, not_le.mpr hlt]
    unfold timeLong linearize
    rw [this]
    simp
  · have : pLong (thr :: uniform thr thr m) thr = 1 := by
      unfold pLong
      rw [List.takeWhile_cons, if_pos (by simp)]
      cases m with
      | zero => simp [uniform]
      | succ m => simp [uniform, hd]
    unfold timeLong linearize
    rw [this]
    refine ⟨by simp, fun x hx => ?_⟩
    rw [if_pos one_pos]
    cases x with
    | nil => simp at hx
    | cons x l =>
      simp only [List.take_succ_cons, List.take_zero, List.map_cons, List.map_nil, List.headD_cons, List.tail_cons, List.singleton_append]
      rw [mul_div_assoc, div_self hd.ne', mul_one]

theorem pulseAt_zero (R : ℝ → ℝ) (d : ℝ) : pulseAt R d 0 = R d := by
  simp [pulseAt, stepAt]

/-! ### Uniform temperature of the walls -/

theorem ubwt_pulses {H : Fin n → ℝ} (F : Fin n → Fin n → ℝ → ℝ) {d : ℝ} (hd : 0 < d) (m : ℕ) {l : List ((Fin n → ℝ) × ℝ)}
    (h : ubwtLoop H (d :: uniform d d m) (fun i j => (d :: uniform d d m).map (F i j)) (m + 1) = some l) {X : ℕ → (Fin n → ℝ) × ℝ} (hX : ∀ p ≤ m, l[p]? = some (X p)) {p : ℕ} (hp : p ≤ m)
    (i : Fin n) : (X p).2 = ∑ j, ∑ k ∈ range (p + 1), (X k).1 j * pulseAt (F i j) d (p - k) := by
  obtain ⟨hlen, -⟩ := ubwtLoop_spec h
  rw [ubwt_superposition F hd m h hp (hX p hp) i]
  refine sum_congr rfl fun j _ => ?_
  obtain ⟨qs, hqs⟩ : ∃ qs, qs = (l.take (p + 1)).map fun z => z.1 j := ⟨_, rfl⟩
  have hl : qs.length = p + 1 := by rw [hqs]; simp [hlen]; omega
  rw [← hqs]
  have := duhamel_pulses (F i j) d qs 0 0 (p + 1) (by omega)
  rw [uniform, zero_add, zero_add, hl] at this
  push_cast at this
  rw [this, neg_zero, zero_mul, zero_add]
  refine sum_congr rfl fun k hk => ?_
  have hk' := mem_range.mp hk
  congr 1
  rw [hqs, List.getD_eq_getElem?_getD, List.getElem?_map, List.getElem?_take_of_lt hk', hX k (by omega)]
  rfl

/-- Coefficients of the system with memory for a uniform temperature. -/
def wallC (H : Fin n → ℝ) (F : Fin n → Fin n → ℝ → ℝ) (d : ℝ) : Fin n ⊕ Unit → Fin n ⊕ Unit → ℕ → ℝ
  | .inl i, .inl j, u => pulseAt (F i j) d u
  | .inl _, .inr _, u => if u = 0 then -1 else 0
  | .inr _, .inl j, u => if u = 0 then H j else 0
  | .inr _, .inr _, _ => 0

theorem sum_now (a : ℕ → ℝ) (k : ℕ) (c : ℝ) : ∑ l ∈ range (k + 1), a l * (if k - l = 0 then c else 0) = a k * c := by
  rw [sum_range_succ, Nat.sub_self, if_pos rfl, sum_eq_zero fun l hl => by
    have := mem_range.mp hl
    rw [if_neg (by omega), mul_zero], zero_add]

theorem wallC_rows {H : Fin n → ℝ} {F : Fin n → Fin n → ℝ → ℝ} {d : ℝ} {q : ℕ → Fin n → ℝ} {T : ℕ → ℝ} {k : ℕ} :
    (∀ i, ∑ s, ∑ l ∈ range (k + 1), Sum.elim (q l) (fun _ => T l) s * wallC H F d (.inl i) s (k - l) = felt F d q k i - T k) ∧
      ∑ s, ∑ l ∈ range (k + 1), Sum.elim (q l) (fun _ => T l) s * wallC H F d (.inr ()) s (k - l) = ∑ i, H i * q k i := by
  constructor
  · intro i
    rw [Fintype.sum_sum_type, felt_pulses]
    simp only [wallC, Sum.elim_inl, Sum.elim_inr, univ_unique, sum_singleton, sum_now]
    ring
  · rw [Fintype.sum_sum_type]
    simp only [wallC, Sum.elim_inl, Sum.elim_inr, univ_unique, sum_now, mul_zero, sum_const_zero, add_zero]
    exact sum_congr rfl fun i _ => mul_comm _ _

theorem wallHistory_iff {H : Fin n → ℝ} {F : Fin n → Fin n → ℝ → ℝ} {d : ℝ} {m : ℕ} {P : ℕ → ℝ} {q : ℕ → Fin n → ℝ} {T : ℕ → ℝ} :
    WallHistory H F d m P q T ↔ ∀ k ≤ m, ∀ r, ∑ s, ∑ l ∈ range (k + 1), Sum.elim (q l) (fun _ => T l) s * wallC H F d r s (k - l) = P k * Sum.elim (fun _ => 0) (fun _ => ∑ i, H i) r := by
  constructor
  · rintro ⟨h1, h2⟩ k hk (i | u)
    · rw [wallC_rows.1, ← h2 k hk i, sub_self, Sum.elim_inl, mul_zero]
    · rw [wallC_rows.2, h1 k hk, Sum.elim_inr]
  · intro h
    refine ⟨fun k hk => ?_, fun k hk i => ?_⟩
    · have := h k hk (.inr ())
      rwa [wallC_rows.2, Sum.elim_inr] at this
    · have := h k hk (.inl i)
      rw [wallC_rows.1, Sum.elim_inl, mul_zero] at this
      linarith

/-- **C145** (uniform temperature).  Whenever the g-function is found on a grid of equal time steps: for every sequence of mean rates there is one history of rates of the sources with uniform
temperatures, and its temperatures are the temporal superposition of the values of the g-function. -/
theorem wall_step_response {H : Fin n → ℝ} {F : Fin n → Fin n → ℝ → ℝ} {resp : List ℝ → Fin n → Fin n → List ℝ} (hF : Sampled F resp) {d : ℝ} (hd : 0 < d) (m : ℕ) {thr : ℝ} (hthr : thr ≤ d)
    {g : List ℝ} {Qs : List (Fin n → ℝ)} (h : ubwt H resp (d :: uniform d d m) thr = some (g, Qs)) (P : ℕ → ℝ) :
    (∃ q T, WallHistory H F d m P q T) ∧
      ∀ q T, WallHistory H F d m P q T → ∀ k ≤ m, T k = ∑ l ∈ range (k + 1), change P l * g.getD (k - l) 0 := by
  obtain ⟨htl, hlin⟩ := uniform_long hd m hthr
  have hi : Increasing 0 (d :: uniform d d m) := ⟨hd, uniform_increasing hd d m⟩
  unfold ubwt at h
  dsimp only at h
  split at h
  · simp at h
  rename_i l hl
  have e := Option.some.inj h
  simp only [Prod.mk.injEq] at e
  obtain ⟨rfl, -⟩ := e
  have hy : resp (d :: uniform d d m) = fun i j => (d :: uniform d d m).map (F i j) := by funext i j; exact hF _ i j
  rw [htl, hy, show (d :: uniform d d m).length = m + 1 by rw [List.length_cons, uniform_length]] at hl
  obtain ⟨hlen, hst⟩ := ubwtLoop_spec hl
  rw [hlin _ (by rw [List.length_map, hlen])]
  obtain ⟨X, hX⟩ : ∃ X : ℕ → (Fin n → ℝ) × ℝ, ∀ p ≤ m, l[p]? = some (X p) :=
    ⟨fun p => l.getD p (0, 0), fun p hp => by beta_reduce; rw [List.getD_eq_getElem?_getD, List.getElem?_eq_getElem (by omega)]; rfl⟩
  have hone : WallHistory H F d m (fun _ => 1) (fun k => (X k).1) fun k => (X k).2 := by
    refine ⟨fun k hk => ?_, fun k hk i => ?_⟩
    · obtain ⟨-, -, -, -, h3, -⟩ := ubwtStep_spec (hst k _ (hX k hk))
      rw [h3, one_mul]
    · rw [felt_pulses]
      exact ubwt_pulses F hd m hl hX hk i
  have hY := wallHistory_iff.mp hone
  simp only [one_mul] at hY
  have hZ := memory_exists hY P
  have hinj : ∀ D : Fin n ⊕ Unit → ℝ, (∀ r, ∑ s, D s * wallC H F d r s 0 = 0) → D = 0 := fun D hD => by
    obtain ⟨hdt, T0, hs, h1, h2, h3⟩ := ubwtStep_spec (hst 0 _ (hX 0 (Nat.zero_le m)))
    rw [List.take_zero, List.map_nil] at hs
    obtain ⟨a, -⟩ := stepData_spec hs
    have hh : ∀ i j, hdt i j = F i j d := fun i j => by
      have := a i j
      rw [show (diffs (d :: uniform d d m)).getD 0 0 = d from rfl, interp_first hi] at this
      exact (Option.some.inj this).symm
    have r1 : ∀ i, ∑ j, F i j d * D (.inl j) = D (.inr ()) := fun i => by
      have := hD (.inl i)
      rw [Fintype.sum_sum_type] at this
      simp only [wallC, pulseAt_zero, univ_unique, sum_singleton, if_true] at this
      rw [← sub_eq_zero, ← this]
      simp only [mul_comm (F i _ d)]
      rw [show D (Sum.inr default) = D (.inr ()) from rfl]
      ring
    have r2 : ∑ j, H j * D (.inl j) = 0 := by
      have := hD (.inr ())
      rw [Fintype.sum_sum_type] at this
      simp only [wallC, univ_unique, sum_singleton, if_true, mul_zero, add_zero] at this
      rw [← this]
      exact sum_congr rfl fun j _ => mul_comm _ _
    have := h3 (fun i => (X 0).1 i + D (.inl i)) ((X 0).2 + D (.inr ())) (fun i => by
      rw [h1 i, ← r1 i]
      simp only [hh, mul_add, sum_add_distrib]
      ring) (by simp only [mul_add, sum_add_distrib, r2, add_zero]; exact h2)
    obtain ⟨e1, e2⟩ := Prod.mk.injEq _ _ _ _ ▸ this
    funext s
    rcases s with i | u
    · have := congrFun e1 i
      simp only [Pi.zero_apply] at this ⊢
      linarith
    · show D (.inr ()) = 0
      linarith
  refine ⟨⟨fun k i => ∑ a ∈ range (k + 1), change P a * (X (k - a)).1 i, fun k => ∑ a ∈ range (k + 1), change P a * (X (k - a)).2, wallHistory_iff.mpr fun k hk r => ?_⟩, fun q T hqT k hk => ?_⟩
  · rw [← hZ k hk r]
    refine sum_congr rfl fun s _ => sum_congr rfl fun l _ => ?_
    rcases s with i | u <;> rfl
  · have := memory_unique (X := fun k => Sum.elim (q k) fun _ => T k) (Z := fun k s => ∑ a ∈ range (k + 1), change P a * Sum.elim (X (k - a)).1 (fun _ => (X (k - a)).2) s)
      (fun k hk r => ((wallHistory_iff.mp hqT) k hk r).trans (hZ k hk r).symm) hinj k hk
    have := congrFun this (.inr ())
    simp only [Sum.elim_inr] at this
    rw [this]
    refine sum_congr rfl fun a ha => ?_
    have := mem_range.mp ha
    rw [List.getD_eq_getElem?_getD, List.getElem?_map, hX (k - a) (by omega)]
    rfl

/-! ### Mixed inlet temperature -/

/-- Coefficients of the system with memory for a mixed inlet temperature. -/
def inletC (H : Fin n → ℝ) (f : Flow n) (F : Fin n → Fin n → ℝ → ℝ) (d : ℝ) : Fin n ⊕ (Fin n ⊕ Unit) → Fin n ⊕ (Fin n ⊕ Unit) → ℕ → ℝ
  | .inl i, .inl j, u => pulseAt (F i j) d u
  | .inl i, .inr (.inl j), u => if u = 0 then -(if i = j then 1 else 0) else 0
  | .inl _, .inr (.inr _), _ => 0
  | .inr (.inl i), .inl j, u => if u = 0 then (if i = j then 2 * Real.pi * f.ks * f.Hb i else 0) else 0
  | .inr (.inl i), .inr (.inl j), u => if u = 0 then f.aB i j else 0
  | .inr (.inl i), .inr (.inr _), u => if u = 0 then f.aIn i else 0
  | .inr (.inr _), .inl j, u => if u = 0 then H j else 0
  | .inr (.inr _), .inr _, _ => 0

theorem inletC_rows {H : Fin n → ℝ} {f : Flow n} {F : Fin n → Fin n → ℝ → ℝ} {d : ℝ} {q T : ℕ → Fin n → ℝ} {Tin : ℕ → ℝ} {k : ℕ} :
    (∀ i, ∑ s, ∑ l ∈ range (k + 1), Sum.elim (q l) (Sum.elim (T l) fun _ => Tin l) s * inletC H f F d (.inl i) s (k - l) = felt F d q k i - T k i) ∧
    (∀ i, ∑ s, ∑ l ∈ range (k + 1), Sum.elim (q l) (Sum.elim (T l) fun _ => Tin l) s * inletC H f F d (.inr (.inl i)) s (k - l)
      = f.aIn i * Tin k + ∑ j, f.aB i j * T k j + 2 * Real.pi * f.ks * f.Hb i * q k i) ∧
    ∑ s, ∑ l ∈ range (k + 1), Sum.elim (q l) (Sum.elim (T l) fun _ => Tin l) s * inletC H f F d (.inr (.inr ())) s (k - l) = ∑ i, H i * q k i := by
  refine ⟨fun i => ?_, fun i => ?_, ?_⟩
  · rw [Fintype.sum_sum_type, Fintype.sum_sum_type, felt_pulses]
    simp only [inletC, Sum.elim_inl, Sum.elim_inr, univ_unique, sum_now, mul_zero, sum_const_zero, add_zero]
    simp only [mul_neg, mul_ite, mul_one, mul_zero, sum_neg_distrib, sum_ite_eq, mem_univ, if_true]
    ring
  · rw [Fintype.sum_sum_type, Fintype.sum_sum_type]
    simp only [inletC, Sum.elim_inl, Sum.elim_inr, univ_unique, sum_singleton, sum_now]
    simp only [mul_zero, mul_ite, sum_ite_eq, mem_univ, if_true]
    rw [sum_congr rfl fun j _ => mul_comm (T k j) _]
    ring
  · rw [Fintype.sum_sum_type]
    simp only [inletC, Sum.elim_inl, sum_now, mul_zero, sum_const_zero, add_zero]
    exact sum_congr rfl fun i _ => mul_comm _ _

theorem inletHistory_iff {H : Fin n → ℝ} {f : Flow n} {F : Fin n → Fin n → ℝ → ℝ} {d : ℝ} {m : ℕ} {P : ℕ → ℝ} {q T : ℕ → Fin n → ℝ} {Tin : ℕ → ℝ} :
    InletHistory H f F d m P q T Tin ↔ ∀ k ≤ m, ∀ r, ∑ s, ∑ l ∈ range (k + 1), Sum.elim (q l) (Sum.elim (T l) fun _ => Tin l) s * inletC H f F d r s (k - l)
      = P k * Sum.elim (fun _ => 0) (Sum.elim (fun _ => 0) fun _ => ∑ i, H i) r := by
  constructor
  · rintro ⟨h1, h2, h3⟩ k hk (i | i | u)
    · rw [inletC_rows.1, ← h2 k hk i, sub_self, Sum.elim_inl, mul_zero]
    · rw [inletC_rows.2.1, h3 k hk i, neg_add_cancel, Sum.elim_inr, Sum.elim_inl, mul_zero]
    · rw [inletC_rows.2.2, h1 k hk, Sum.elim_inr, Sum.elim_inr]
  · intro h
    refine ⟨fun k hk => ?_, fun k hk i => ?_, fun k hk i => ?_⟩
    · have := h k hk (.inr (.inr ()))
      rwa [inletC_rows.2.2, Sum.elim_inr, Sum.elim_inr] at this
    · have := h k hk (.inl i)
      rw [inletC_rows.1, Sum.elim_inl, mul_zero] at this
      linarith
    · have := h k hk (.inr (.inl i))
      rw [inletC_rows.2.1, Sum.elim_inr, Sum.elim_inl, mul_zero] at this
      linarith

theorem miftA_injective {H : Fin n → ℝ} {f : Flow n} {tl : List ℝ} {y : Fin n → Fin n → List ℝ} {past : List (Fin n → ℝ)} {p : ℕ} {x : MiftState n} (h : miftStep H f tl y past p = some x) :
    ∃ hdt T0, stepData tl y past p = some (hdt, T0) ∧ ∀ D, Matrix.mulVec (miftA H f hdt) D = 0 → D = 0 := by
  unfold miftStep at h
  split at h
  · simp at h
  · rename_i hdt T0 hs
    split at h
    · simp at h
    · rename_i X hX
      refine ⟨hdt, T0, hs, fun D hD => ?_⟩
      have := linsolve_unique hX (Y := X + D) (by rw [Matrix.mulVec_add, hD, add_zero, linsolve_mul hX])
      simpa using this

/-- **C145** (mixed inlet temperature).  Whenever the g-function is found on a grid of equal time steps: for every sequence of mean rates there is one history of the field and its network, and
the mean fluid temperature of the history, less the temperature difference at the resistance of the field, is the temporal superposition of the values of the g-function. -/
theorem inlet_step_response {H : Fin n → ℝ} {f : Flow n} (hks : f.ks ≠ 0) (hHb : ∀ i, f.Hb i ≠ 0) {F : Fin n → Fin n → ℝ → ℝ} {resp : List ℝ → Fin n → Fin n → List ℝ} (hF : Sampled F resp)
    {d : ℝ} (hd : 0 < d) (m : ℕ) {thr : ℝ} (hthr : thr ≤ d) {g : List ℝ} {Qs : List (Fin n → ℝ)} {Ts : Fin n → List ℝ} (h : mift H f resp (d :: uniform d d m) thr = some (g, Qs, Ts))
    (P : ℕ → ℝ) :
    (∃ q T Tin, InletHistory H f F d m P q T Tin) ∧
      ∀ q T Tin, InletHistory H f F d m P q T Tin → ∀ k ≤ m, ∀ Tout, f.mcp * (Tin k - Tout) = 2 * Real.pi * f.ks * (P k * ∑ i, H i) → f.mcp ≠ 0 →
        (Tin k + Tout) / 2 - 2 * Real.pi * f.ks * P k * f.R = ∑ l ∈ range (k + 1), change P l * g.getD (k - l) 0 := by
  obtain ⟨htl, hlin⟩ := uniform_long hd m hthr
  have hi : Increasing 0 (d :: uniform d d m) := ⟨hd, uniform_increasing hd d m⟩
  unfold mift at h
  dsimp only at h
  split at h
  · simp at h
  rename_i l hl
  have e := Option.some.inj h
  simp only [Prod.mk.injEq] at e
  obtain ⟨rfl, -, -⟩ := e
  have hy : resp (d :: uniform d d m) = fun i j => (d :: uniform d d m).map (F i j) := by funext i j; exact hF _ i j
  rw [htl, hy, show (d :: uniform d d m).length = m + 1 by rw [List.length_cons, uniform_length]] at hl
  obtain ⟨hlen, hst⟩ := miftLoop_spec hl
  rw [hlin _ (by rw [List.length_map, hlen])]
  obtain ⟨X, hX⟩ : ∃ X : ℕ → MiftState n, ∀ p ≤ m, l[p]? = some (X p) :=
    ⟨fun p => l.getD p ⟨0, 0, 0, 0⟩, fun p hp => by beta_reduce; rw [List.getD_eq_getElem?_getD, List.getElem?_eq_getElem (by omega)]; rfl⟩
  have hc : ∀ i, 2 * Real.pi * f.ks * f.Hb i ≠ 0 := fun i => mul_ne_zero (mul_ne_zero (mul_ne_zero two_ne_zero Real.pi_ne_zero) hks) (hHb i)
  have hone : InletHistory H f F d m (fun _ => 1) (fun k => (X k).Q) (fun k => (X k).T) fun k => (X k).Tin := by
    refine ⟨fun k hk => ?_, fun k hk i => ?_, fun k hk i => ?_⟩
    · obtain ⟨-, -, -, -, -, h3, -⟩ := miftStep_spec (hst k _ (hX k hk))
      rw [h3, one_mul]
    · rw [felt_pulses]
      exact mift_pulses F hd m hl hX hk i
    · obtain ⟨-, -, -, -, h2, -, -⟩ := miftStep_spec (hst k _ (hX k hk))
      have := h2 i
      simp only [div_mul_eq_mul_div, ← sum_div] at this
      have hci := hc i
      generalize 2 * Real.pi * f.ks * f.Hb i = c at this hci ⊢
      field_simp at this
      linarith
  have hY := inletHistory_iff.mp hone
  simp only [one_mul] at hY
  have hZ := memory_exists hY P
  have hinj : ∀ D : Fin n ⊕ (Fin n ⊕ Unit) → ℝ, (∀ r, ∑ s, D s * inletC H f F d r s 0 = 0) → D = 0 := fun D hD => by
    obtain ⟨hdt, T0, hs, h3⟩ := miftA_injective (hst 0 _ (hX 0 (Nat.zero_le m)))
    rw [List.take_zero, List.map_nil] at hs
    obtain ⟨a, -⟩ := stepData_spec hs
    have hh : ∀ i j, hdt i j = F i j d := fun i j => by
      have := a i j
      rw [show (diffs (d :: uniform d d m)).getD 0 0 = d from rfl, interp_first hi] at this
      exact (Option.some.inj this).symm
    have rows := @inletC_rows n H f F d (fun _ i => D (.inl i)) (fun _ i => D (.inr (.inl i))) (fun _ => D (.inr (.inr ()))) 0
    have hDe : ∀ s, Sum.elim (fun i => D (.inl i)) (Sum.elim (fun i => D (.inr (.inl i))) fun _ => D (.inr (.inr ()))) s = D s := by rintro (i | i | u) <;> rfl
    simp only [zero_add, range_one, sum_singleton, Nat.sub_self, hDe, hD] at rows
    obtain ⟨r1, r2, r3⟩ := rows
    refine h3 D ?_
    funext r
    rcases r with i | i | u
    · have := r1 i
      rw [felt_pulses] at this
      simp only [zero_add, range_one, sum_singleton, Nat.sub_self, pulseAt_zero] at this
      unfold miftA
      simp only [Matrix.mulVec, dotProduct, Matrix.of_apply, Fintype.sum_sum_type, Matrix.fromBlocks_apply₁₁, Matrix.fromBlocks_apply₁₂, Sum.elim_inl, Sum.elim_inr,
        univ_unique, sum_singleton, Matrix.one_apply, zero_mul, add_zero, neg_mul, ite_mul, one_mul, sum_neg_distrib, sum_ite_eq, mem_univ, if_true, Pi.zero_apply, hh]
      rw [this, ← sub_eq_add_neg]
      congr 1
      exact sum_congr rfl fun j _ => mul_comm _ _
    · have := r2 i
      unfold miftA
      simp only [Matrix.mulVec, dotProduct, Matrix.of_apply, Fintype.sum_sum_type, Matrix.fromBlocks_apply₂₁, Matrix.fromBlocks_apply₂₂, Sum.elim_inl, Sum.elim_inr,
        univ_unique, sum_singleton, Matrix.one_apply, ite_mul, one_mul, zero_mul, sum_ite_eq, mem_univ, if_true, Pi.zero_apply, div_mul_eq_mul_div, ← sum_div]
      have hci := hc i
      rw [show D (Sum.inr (Sum.inr default)) = D (.inr (.inr ())) from rfl]
      generalize 2 * Real.pi * f.ks * f.Hb i = c at this hci ⊢
      field_simp
      linarith
    · unfold miftA
      simp only [Matrix.mulVec, dotProduct, Matrix.of_apply, Fintype.sum_sum_type, Matrix.fromBlocks_apply₂₁, Matrix.fromBlocks_apply₂₂, Sum.elim_inr, Pi.zero_apply, zero_mul, sum_const_zero,
        add_zero]
      exact r3.symm
  refine ⟨⟨fun k i => ∑ a ∈ range (k + 1), change P a * (X (k - a)).Q i, fun k i => ∑ a ∈ range (k + 1), change P a * (X (k - a)).T i,
    fun k => ∑ a ∈ range (k + 1), change P a * (X (k - a)).Tin, inletHistory_iff.mpr fun k hk r => ?_⟩, fun q T Tin hqT k hk Tout hTout hmcp => ?_⟩
  · rw [← hZ k hk r]
    refine sum_congr rfl fun s _ => sum_congr rfl fun l _ => ?_
    rcases s with i | i | u <;> rfl
  · have := memory_unique (X := fun k => Sum.elim (q k) (Sum.elim (T k) fun _ => Tin k))
      (Z := fun k s => ∑ a ∈ range (k + 1), change P a * Sum.elim (X (k - a)).Q (Sum.elim (X (k - a)).T fun _ => (X (k - a)).Tin) s)
      (fun k hk r => ((inletHistory_iff.mp hqT) k hk r).trans (hZ k hk r).symm) hinj k hk
    have hTin := congrFun this (.inr (.inr ()))
    simp only [Sum.elim_inr] at hTin
    have hval : ∀ a ∈ range (k + 1), change P a * (l.map MiftState.g).getD (k - a) 0
        = change P a * (X (k - a)).Tin - change P a * (Real.pi * f.ks * (∑ i, H i) / f.mcp + 2 * Real.pi * f.ks * f.R) := fun a ha => by
      have := mem_range.mp ha
      obtain ⟨-, -, -, -, -, -, h4⟩ := miftStep_spec (hst (k - a) _ (hX (k - a) (by omega)))
      rw [List.getD_eq_getElem?_getD, List.getElem?_map, hX (k - a) (by omega), Option.map_some, Option.getD_some, h4]
      unfold effective
      ring
    rw [sum_congr rfl hval, sum_sub_distrib, ← hTin, ← sum_mul, change_sum]
    have ho : Tout = Tin k - 2 * Real.pi * f.ks * (P k * ∑ i, H i) / f.mcp := by
      field_simp
      linarith
    rw [ho]
    ring

end Verif.Sol
