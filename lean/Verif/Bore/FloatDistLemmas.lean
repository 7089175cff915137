import Verif.Bore.FloatDistModel
import Verif.Bore.DistProps
import Verif.Num.NearProps

/-!
# Lemmas about the grouping of distances with floating-point numbers
-/

namespace Verif.Bore

open Verif.Num

/-! ### Rounding -/

/-- A number of the format below `x` stays below the rounded `x`. -/
theorem binary64_ge {f x : ℝ} (hf : IsFloat binary64 f) (hf0 : 0 < f) (h : f ≤ x) : f ≤ binary64 x := by
  have hx0 : 0 < x := hf0.trans_le h
  obtain ⟨n, -, hn⟩ := hf.form
  have hlog : Int.log 2 |f| ≤ Int.log 2 |x| := by
    rw [abs_of_pos hf0, abs_of_pos hx0]
    exact Int.log_mono_right hf0 h
  have hle : lastDigit f ≤ lastDigit x := max_le_max (by omega) le_rfl
  have hp := pow_last_pos x
  have hflo : ∀ m : ℤ, (m : ℝ) * 2 ^ lastDigit x ≤ x → (m : ℝ) * 2 ^ lastDigit x ≤ binary64 x := by
    intro m hm
    have h1 : (m : ℝ) ≤ x / 2 ^ lastDigit x := by rwa [le_div_iff₀ hp]
    have h2 : m ≤ ⌊x / 2 ^ lastDigit x⌋ := Int.le_floor.mpr h1
    have h3 : ⌊x / 2 ^ lastDigit x⌋ ≤ nearestEven (x / 2 ^ lastDigit x) := by
      unfold nearestEven
      split_ifs <;> omega
    unfold binary64
    have h4 : (m : ℝ) ≤ nearestEven (x / 2 ^ lastDigit x) := by exact_mod_cast h2.trans h3
    exact mul_le_mul_of_nonneg_right h4 hp.le
  rcases eq_or_lt_of_le hle with he | hl
  · rw [hn, he]
    refine hflo n ?_
    rw [← he, ← hn]; exact h
  · have hL : lastDigit x = Int.log 2 |x| - 52 := by
      unfold lastDigit at hl ⊢
      omega
    have hlt : Int.log 2 |f| < Int.log 2 |x| := by
      unfold lastDigit at hl
      omega
    have h1 : f < 2 ^ (Int.log 2 |x|) := by
      have := Int.lt_zpow_succ_log_self (by norm_num : 1 < 2) |f|
      rw [abs_of_pos hf0] at this
      refine this.trans_le ?_
      rw [Nat.cast_ofNat]
      refine zpow_le_zpow_right₀ (by norm_num) ?_
      rw [abs_of_pos hf0] at hlt
      omega
    have h2 : (2 : ℝ) ^ (Int.log 2 |x|) ≤ x := by
      have := Int.zpow_log_le_self (by norm_num : 1 < 2) hx0
      rw [abs_of_pos hx0]
      simpa using this
    have h3 : (2 : ℝ) ^ (Int.log 2 |x|) = ((2 ^ 52 : ℤ) : ℝ) * 2 ^ lastDigit x := by
      rw [hL, Int.cast_pow, Int.cast_ofNat, ← zpow_natCast, ← zpow_add₀ (by norm_num)]
      congr 1
      push_cast
      ring
    rw [h3] at h1 h2
    exact h1.le.trans (hflo _ h2)

/-- The number after one. -/
theorem next_one : IsFloat binary64 (1 + 2 ^ (-52 : ℤ)) := by
  have := binary64_exact (2 ^ 52 + 1) (-52) (by norm_num) (by norm_num)
  unfold IsFloat
  have e : (1 + 2 ^ (-52 : ℤ) : ℝ) = ((2 ^ 52 + 1 : ℤ) : ℝ) * 2 ^ (-52 : ℤ) := by norm_num
  rw [e]; exact this

theorem log_near_one {x : ℝ} (h1 : 1 ≤ x) (h2 : x < 2) : lastDigit x = -52 := by
  have : Int.log 2 |x| = 0 := by
    rw [abs_of_pos (by linarith), Int.log_of_one_le_right _ h1]
    have : ⌊x⌋₊ = 1 := by
      rw [Nat.floor_eq_iff (by linarith)]
      constructor <;> norm_num <;> linarith
    rw [this]; simp
  unfold lastDigit
  rw [this]
  norm_num

/-- Tolerances above `2⁻⁵³` are seen by the sum. -/
theorem one_add_seen {tol : ℝ} (h : 2 ^ (-53 : ℤ) < tol) : 1 + 2 ^ (-52 : ℤ) ≤ binary64 (1 + tol) := by
  by_cases hc : 2 ^ (-52 : ℤ) ≤ tol
  · exact binary64_ge next_one (by positivity) (by linarith)
  · push Not at hc
    have h53 : (2 : ℝ) ^ (-52 : ℤ) = 1 / 4503599627370496 := by norm_num
    have h54 : (2 : ℝ) ^ (-53 : ℤ) = 1 / 9007199254740992 := by norm_num
    rw [h53] at hc ⊢
    rw [h54] at h
    have hd := log_near_one (x := 1 + tol) (by linarith) (by linarith)
    have hne : nearestEven ((1 + tol) / 2 ^ (-52 : ℤ)) = 4503599627370497 := by
      refine nearestEven_of_near ?_
      rw [h53, abs_lt]
      push_cast
      constructor <;> linarith
    unfold binary64
    rw [hd, hne, h53]
    norm_num

/-- Smaller tolerances are not. -/
theorem one_add_unseen {tol : ℝ} (h0 : 0 ≤ tol) (h : tol ≤ 2 ^ (-53 : ℤ)) : binary64 (1 + tol) = 1 := by
  have h53 : (2 : ℝ) ^ (-52 : ℤ) = 1 / 4503599627370496 := by norm_num
  have h54 : (2 : ℝ) ^ (-53 : ℤ) = 1 / 9007199254740992 := by norm_num
  rw [h54] at h
  have hd := log_near_one (x := 1 + tol) (by linarith) (by linarith)
  have hfl : ⌊(1 + tol) / (1 / 4503599627370496)⌋ = (4503599627370496 : ℤ) := by
    rw [Int.floor_eq_iff]
    push_cast
    constructor <;> linarith
  have hne : nearestEven ((1 + tol) / 2 ^ (-52 : ℤ)) = 4503599627370496 := by
    unfold nearestEven
    rw [h53, hfl]
    split_ifs with h1 h2 h3
    · rfl
    · exfalso
      push_cast at h2
      linarith
    · rfl
    · exact absurd (by decide) h3
  unfold binary64
  rw [hd, hne, h53]
  norm_num

/-- The threshold of a distance is above the distance. -/
theorem threshold_gt {tol a : ℝ} (ht : 2 ^ (-53 : ℤ) < tol) (ha : IsFloat binary64 a) (hn : 2 ^ (-1022 : ℤ) ≤ a) : a < threshold binary64 tol a := by
  have ha0 : 0 < a := lt_of_lt_of_le (by positivity) hn
  have hc := one_add_seen ht
  obtain ⟨n, hn53, hna⟩ := ha.form
  obtain ⟨k, hk⟩ : ∃ k, k = lastDigit a := ⟨_, rfl⟩
  rw [← hk] at hna
  have hp : (0 : ℝ) < 2 ^ k := by positivity
  have hlt : a < 2 ^ (k + 53) := by
    have := abs_lt_last a
    rwa [abs_of_pos ha0, ← hk] at this
  have hlog : (-1022 : ℤ) ≤ Int.log 2 |a| := by
    rw [abs_of_pos ha0]
    exact (Int.zpow_le_iff_le_log (by norm_num) ha0).mp (by exact_mod_cast hn)
  have hk' : k = Int.log 2 |a| - 52 := by rw [hk]; unfold lastDigit; omega
  have hk1 : -1074 ≤ k := by omega
  have hn0 : 0 < n := by
    have : (0 : ℝ) < n := by
      by_contra hc
      push Not at hc
      nlinarith
    exact_mod_cast this
  have hnlt : n < 2 ^ 53 := by
    have : (n : ℝ) < 2 ^ 53 := by
      rw [zpow_add₀ (by norm_num)] at hlt
      rw [hna, mul_comm] at hlt
      have := lt_of_mul_lt_mul_left hlt hp.le
      exact_mod_cast this
    exact_mod_cast this
  have hnext : IsFloat binary64 (((n + 1 : ℤ) : ℝ) * 2 ^ k) := by
    refine binary64_exact (n + 1) k ?_ hk1
    rw [abs_of_pos (by omega)]; omega
  have hup : ((n + 1 : ℤ) : ℝ) * 2 ^ k ≤ binary64 (1 + tol) * a := by
    have h1 : (2 : ℝ) ^ k ≤ 2 ^ (-52 : ℤ) * a := by
      have h2 : (2 : ℝ) ^ (Int.log 2 |a|) ≤ a := by
        have := Int.zpow_log_le_self (by norm_num : 1 < 2) ha0
        rw [abs_of_pos ha0]
        simpa using this
      calc (2 : ℝ) ^ k = 2 ^ (-52 : ℤ) * 2 ^ (Int.log 2 |a|) := by
            rw [← zpow_add₀ (by norm_num), hk']; congr 1; ring
        _ ≤ _ := mul_le_mul_of_nonneg_left h2 (by positivity)
    calc ((n + 1 : ℤ) : ℝ) * 2 ^ k = a + 2 ^ k := by rw [hna]; push_cast; ring
      _ ≤ (1 + 2 ^ (-52 : ℤ)) * a := by linarith
      _ ≤ _ := mul_le_mul_of_nonneg_right hc ha0.le
  have hfin := binary64_ge hnext (mul_pos (by exact_mod_cast (by omega : 0 < n + 1)) hp) hup
  calc a < ((n + 1 : ℤ) : ℝ) * 2 ^ k := by rw [hna]; push_cast; linarith
    _ ≤ _ := hfin

/-- The threshold is the exact one up to a factor close to one. -/
theorem threshold_near {tol a : ℝ} (ht : 2 ^ (-53 : ℤ) < tol) (hn : 2 ^ (-1022 : ℤ) ≤ a) :
    (1 + tol) * (1 - 2 ^ (-50 : ℤ)) * a ≤ threshold binary64 tol a ∧ threshold binary64 tol a ≤ (1 + tol) * (1 + 2 ^ (-50 : ℤ)) * a := by
  have ha0 : 0 < a := lt_of_lt_of_le (by positivity) hn
  have htol : 0 < tol := lt_trans (by positivity) ht
  obtain ⟨u, hu⟩ : ∃ u : ℝ, u = 2 ^ (-53 : ℤ) := ⟨_, rfl⟩
  have hu0 : 0 < u := by rw [hu]; positivity
  have hu1 : u ≤ 1 / 100 := by rw [hu]; norm_num
  have h50 : (2 : ℝ) ^ (-50 : ℤ) = 8 * u := by rw [hu]; norm_num
  have e1 := abs_le.mp (binary64_rounding.err (1 + tol))
  have hη : (2 : ℝ) ^ (-1075 : ℤ) ≤ u := by rw [hu]; exact zpow_le_zpow_right₀ (by norm_num) (by norm_num)
  have hηa : (2 : ℝ) ^ (-1075 : ℤ) ≤ u * a := by
    have : (2 : ℝ) ^ (-1075 : ℤ) = u * 2 ^ (-1022 : ℤ) := by rw [hu, ← zpow_add₀ (by norm_num)]; norm_num
    rw [this]; exact mul_le_mul_of_nonneg_left hn hu0.le
  obtain ⟨c, hc⟩ : ∃ c, c = binary64 (1 + tol) := ⟨_, rfl⟩
  have hc1 : 1 ≤ c := by
    have := one_add_seen ht
    have h2 : (0 : ℝ) < 2 ^ (-52 : ℤ) := by positivity
    rw [hc]; linarith
  have e2 := abs_le.mp (binary64_rounding.err (c * a))
  unfold threshold
  rw [← hc] at e1 ⊢
  rw [← hu, abs_of_pos (by linarith : 0 < 1 + tol)] at e1
  rw [← hu, abs_of_pos (by positivity : 0 < c * a)] at e2
  rw [h50]
  have hca : a ≤ c * a := by nlinarith
  have hcup : c ≤ (1 + tol) * (1 + 2 * u) := by nlinarith [e1.2]
  have hclo : (1 + tol) * (1 - 2 * u) ≤ c := by nlinarith [e1.1]
  constructor
  · have : c * a * (1 - 2 * u) ≤ binary64 (c * a) := by nlinarith [e2.1]
    refine le_trans ?_ this
    have h3 : (1 + tol) * (1 - 2 * u) * a ≤ c * a := mul_le_mul_of_nonneg_right hclo ha0.le
    have h4 : (1 + tol) * (1 - 2 * u) * a * (1 - 2 * u) ≤ c * a * (1 - 2 * u) := mul_le_mul_of_nonneg_right h3 (by linarith)
    refine le_trans ?_ h4
    have h5 : 0 < (1 + tol) * a := by positivity
    nlinarith [mul_pos h5 hu0, mul_pos (mul_pos h5 hu0) hu0]
  · have : binary64 (c * a) ≤ c * a * (1 + 2 * u) := by nlinarith [e2.2]
    refine this.trans ?_
    have h3 : c * a ≤ (1 + tol) * (1 + 2 * u) * a := mul_le_mul_of_nonneg_right hcup ha0.le
    have h4 : c * a * (1 + 2 * u) ≤ (1 + tol) * (1 + 2 * u) * a * (1 + 2 * u) := mul_le_mul_of_nonneg_right h3 (by linarith)
    refine h4.trans ?_
    have h5 : 0 < (1 + tol) * a := by positivity
    have h6 : (1 + 2 * u) * (1 + 2 * u) ≤ 1 + 8 * u := by nlinarith
    calc (1 + tol) * (1 + 2 * u) * a * (1 + 2 * u) = (1 + tol) * a * ((1 + 2 * u) * (1 + 2 * u)) := by ring
      _ ≤ (1 + tol) * a * (1 + 8 * u) := mul_le_mul_of_nonneg_left h6 h5.le
      _ = _ := by ring

/-! ### Loops -/

/-- A grouping with the thresholds `thr`. -/
def GroupedBy (thr : ℝ → ℝ) : List (List ℝ) → Prop
  | [] => True
  | g :: gs => (∃ a t, g = a :: t ∧ (∀ x ∈ t, a ≤ x ∧ x < thr a) ∧
      ∀ h ∈ gs.head?, ∃ b t', h = b :: t' ∧ thr a ≤ b) ∧ GroupedBy thr gs

/-- The first step splits the remaining distances in the group of the smallest one and the
rest. -/
theorem argmax_split_thr (thr : ℝ → ℝ) (d P : List ℝ) (a : ℝ) (R : List ℝ)
    (hd : d.Pairwise (· ≤ ·)) (hpos : ∀ x ∈ d, x < thr x) (h : d = P ++ a :: R) :
    ∃ T U, R = T ++ U ∧ (∀ x ∈ T, a ≤ x ∧ x < thr a) ∧
      ((U = [] ∧ argmaxGe d (thr a) = 0) ∨
        ∃ b U', U = b :: U' ∧ thr a ≤ b ∧
          argmaxGe d (thr a) = P.length + 1 + T.length) := by
  obtain ⟨hP, hR⟩ := sorted_split hd h
  have hav : a < thr a := hpos a (by rw [h]; simp)
  have hf : d.findIdx? (fun x => decide (thr a ≤ x))
      = (R.findIdx? fun x => decide (thr a ≤ x)).map (· + (P.length + 1)) := by
    rw [h]; exact findIdx_aux P a (thr a) R (fun x hx => lt_of_le_of_lt (hP x hx) hav) hav
  cases hR' : R.findIdx? (fun x => decide (thr a ≤ x)) with
  | none =>
    rw [hR'] at hf
    rw [List.findIdx?_eq_none_iff] at hR'
    refine ⟨R, [], by simp, fun x hx => ⟨hR x hx, by simpa using hR' x hx⟩, Or.inl ⟨rfl, ?_⟩⟩
    rw [argmaxGe, hf]; rfl
  | some i =>
    rw [hR'] at hf
    rw [List.findIdx?_eq_some_iff_getElem] at hR'
    obtain ⟨hi, hge, hlt⟩ := hR'
    refine ⟨R.take i, R.drop i, (List.take_append_drop i R).symm, ?_, Or.inr ⟨R[i], R.drop (i + 1), ?_, ?_, ?_⟩⟩
    · intro x hx
      refine ⟨hR x (List.mem_of_mem_take hx), ?_⟩
      obtain ⟨j, hj, rfl⟩ := List.mem_iff_getElem.mp hx
      rw [List.length_take] at hj
      have := hlt j (by omega)
      rw [List.getElem_take]
      simpa using this
    · exact List.drop_eq_getElem_cons hi
    · simpa using hge
    · rw [argmaxGe, hf]
      simp only [Option.map_some, Option.getD_some, List.length_take]
      omega

/-- The loop of `unique_distance` from any point of the sorted list. -/
theorem unique_loop_fl (fl : ℝ → ℝ) (mean : List ℝ → ℝ) (tol : ℝ) (d : List ℝ) (hd : d.Pairwise (· ≤ ·))
    (hpos : ∀ x ∈ d, x < threshold fl tol x) (n : ℕ) (P S : List ℝ) (hn : S.length ≤ n) (h : d = P ++ S)
    (hS : S ≠ []) (j1 : ℕ) (hj1 : 0 < j1) (dis : List ℝ) (w : List ℕ) :
    ∃ s gs, Loop (uCond d) (uBodyFl fl mean tol d) ⟨P.length, j1, dis, w⟩ s ∧ gs.flatten = S ∧
      GroupedBy (threshold fl tol) gs ∧ s.dis = dis ++ gs.map mean ∧ s.wDis = w ++ gs.map List.length := by
  induction n generalizing P S j1 dis w with
  | zero => exact absurd (List.length_eq_zero_iff.mp (by omega)) hS
  | succ n ih =>
    obtain ⟨a, R, rfl⟩ := List.exists_cons_of_ne_nil hS
    obtain ⟨T, U, hRU, hT, hcase⟩ := argmax_split_thr (threshold fl tol) d P a R hd hpos h
    have hget : d.getD P.length 0 = a := by rw [h]; simp
    have hcond : uCond d ⟨P.length, j1, dis, w⟩ := by
      refine ⟨?_, hj1⟩
      rw [h]; simp
    rcases hcase with ⟨rfl, harg⟩ | ⟨b, U', rfl, hb, harg⟩
    · have hbody : uBodyFl fl mean tol d ⟨P.length, j1, dis, w⟩
          = ⟨0, 0, dis ++ [mean (a :: R)], w ++ [(a :: R).length]⟩ := by
        simp only [uBodyFl, hget, harg]
        rw [if_neg (by omega)]
        simp [h]
      refine ⟨⟨0, 0, dis ++ [mean (a :: R)], w ++ [(a :: R).length]⟩, [a :: R], ?_, by simp, ?_,
        rfl, rfl⟩
      · refine Loop.step hcond ?_
        rw [hbody]
        exact Loop.done (by simp [uCond])
      · refine ⟨⟨a, R, rfl, ?_, by simp⟩, trivial⟩
        rw [hRU, List.append_nil]
        exact hT
    · have hlen : P.length + 1 + T.length = (P ++ a :: T).length := by simp; omega
      have hd' : d = (P ++ a :: T) ++ (b :: U') := by rw [h, hRU]; simp
      have hbody : uBodyFl fl mean tol d ⟨P.length, j1, dis, w⟩
          = ⟨(P ++ a :: T).length, (P ++ a :: T).length, dis ++ [mean (a :: T)],
              w ++ [(a :: T).length]⟩ := by
        simp only [uBodyFl, hget, harg]
        rw [if_pos (by omega), hlen]
        have h1 : (P ++ a :: T).length - P.length = (a :: T).length := by simp
        rw [h1, hd', List.append_assoc, slice_aux]
      obtain ⟨s, gs, hl, hfl, hgr, hdis, hw⟩ := ih (P ++ a :: T) (b :: U')
        (by rw [hRU] at hn; simp at hn ⊢; omega) hd' (by simp) (P ++ a :: T).length (by simp)
        (dis ++ [mean (a :: T)]) (w ++ [(a :: T).length])
      refine ⟨s, (a :: T) :: gs, Loop.step hcond (by rw [hbody]; exact hl), ?_, ?_, ?_, ?_⟩
      · rw [List.flatten_cons, hfl, hRU]; simp
      · refine ⟨⟨a, T, rfl, hT, ?_⟩, hgr⟩
        cases gs with
        | nil => simp at hfl
        | cons g gs =>
          intro g' hg'
          simp only [List.head?_cons, Option.mem_def, Option.some.injEq] at hg'
          subst hg'
          obtain ⟨⟨a', t', rfl, -⟩, -⟩ := hgr
          simp only [List.flatten_cons, List.cons_append, List.cons.injEq] at hfl
          exact ⟨a', t', rfl, by rw [hfl.1]; exact hb⟩
      · rw [hdis]; simp
      · rw [hw]; simp

theorem find_loop_fl (fl : ℝ → ℝ) (mean : List ℝ → ℝ) (tol : ℝ) (f : ℕ → ℝ) (isort : List ℕ) (hnd : isort.Nodup)
    (d : List ℝ) (hdi : d = isort.map f) (hd : d.Pairwise (· ≤ ·))
    (hpos : ∀ x ∈ d, x < threshold fl tol x) (n : ℕ) (P S : List ℕ) (hn : S.length ≤ n) (h : isort = P ++ S)
    (hS : S ≠ []) (j1 : ℕ) (hj1 : 0 < j1) (nd : ℕ) (dis : List ℝ) (ind : ℕ → ℕ) :
    ∃ s qs, Loop (sCond d) (sBodyFl fl mean tol d isort) ⟨P.length, j1, nd, dis, ind⟩ s ∧ qs.flatten = S ∧
      GroupedBy (threshold fl tol) (qs.map (List.map f)) ∧ s.distances = dis ++ qs.map (fun q => mean (q.map f)) ∧
      Labelled s.indices nd qs ∧ ∀ p, p ∉ S → s.indices p = ind p := by
  induction n generalizing P S j1 nd dis ind with
  | zero => exact absurd (List.length_eq_zero_iff.mp (by omega)) hS
  | succ n ih =>
    obtain ⟨a, R, rfl⟩ := List.exists_cons_of_ne_nil hS
    have hdP : d = P.map f ++ f a :: R.map f := by rw [hdi, h]; simp
    obtain ⟨T', U', hRU', hT', hcase⟩ := argmax_split_thr (threshold fl tol) d (P.map f) (f a) (R.map f) hd hpos hdP
    obtain ⟨T, U, hRU, hTT, hUU⟩ : ∃ T U, R = T ++ U ∧ T.map f = T' ∧ U.map f = U' :=
      List.map_eq_append_iff.mp hRU'
    rw [List.length_map] at hcase
    have hget : d.getD P.length 0 = f a := by rw [hdP]; simp
    have hcond : sCond d ⟨P.length, j1, nd, dis, ind⟩ := by
      refine ⟨?_, hj1⟩
      rw [hdP]; simp
    rcases hcase with ⟨rfl, harg⟩ | ⟨b', U'', rfl, hb, harg⟩
    · have hU : U = [] := by simpa using hUU
      subst hU
      have hRT : R = T := by simpa using hRU
      subst hRT
      have hbody : sBodyFl fl mean tol d isort ⟨P.length, j1, nd, dis, ind⟩
          = ⟨0, 0, nd + 1, dis ++ [mean ((a :: R).map f)], assign ind (a :: R) nd⟩ := by
        simp only [sBodyFl, hget, harg]
        rw [if_neg (by omega)]
        have e1 : d.drop P.length = (a :: R).map f := by rw [hdi, h]; simp
        have e2 : isort.drop P.length = a :: R := by rw [h]; simp
        rw [e1, e2]
      refine ⟨⟨0, 0, nd + 1, dis ++ [mean ((a :: R).map f)], assign ind (a :: R) nd⟩, [a :: R],
        ?_, by simp, ?_, rfl, ?_, ?_⟩
      · refine Loop.step hcond ?_
        rw [hbody]
        exact Loop.done (by simp [sCond])
      · refine ⟨⟨f a, R.map f, rfl, ?_, by simp⟩, trivial⟩
        rw [hTT]
        exact hT'
      · exact ⟨fun p hp => by simp only [assign]; rw [if_pos hp], trivial⟩
      · intro p hp
        simp only [assign]; rw [if_neg hp]
    · obtain ⟨b, U, rfl, hfb, hUU⟩ : ∃ b V, U = b :: V ∧ f b = b' ∧ V.map f = U'' :=
        List.map_eq_cons_iff.mp hUU
      subst hfb
      have hTlen : T'.length = T.length := by rw [← hTT]; simp
      have hlen : P.length + 1 + T.length = (P ++ a :: T).length := by simp; omega
      have hd' : isort = (P ++ a :: T) ++ (b :: U) := by rw [h, hRU]; simp
      have hbody : sBodyFl fl mean tol d isort ⟨P.length, j1, nd, dis, ind⟩
          = ⟨(P ++ a :: T).length, (P ++ a :: T).length, nd + 1, dis ++ [mean ((a :: T).map f)],
              assign ind (a :: T) nd⟩ := by
        simp only [sBodyFl, hget, harg, hTlen]
        rw [if_pos (by omega), hlen]
        have h1 : (P ++ a :: T).length - P.length = (a :: T).length := by simp
        have e1 : (d.drop P.length).take (a :: T).length = (a :: T).map f := by
          rw [hdi, hd']; simp
        have e2 : (isort.drop P.length).take (a :: T).length = a :: T := by rw [hd']; simp
        rw [h1, e1, e2]
      obtain ⟨s, qs, hl, hfl, hgr, hdis, hlab, hun⟩ := ih (P ++ a :: T) (b :: U)
        (by rw [hRU] at hn; simp at hn ⊢; omega) hd' (by simp) (P ++ a :: T).length (by simp)
        (nd + 1) (dis ++ [mean ((a :: T).map f)]) (assign ind (a :: T) nd)
      have hdisj : ∀ p ∈ a :: T, p ∉ b :: U := by
        intro p hp hp'
        rw [hd', List.append_assoc] at hnd
        have := (List.nodup_append.mp (List.nodup_append.mp hnd).2.1).2.2 p hp p hp'
        exact this rfl
      refine ⟨s, (a :: T) :: qs, Loop.step hcond (by rw [hbody]; exact hl), ?_, ?_, ?_, ?_, ?_⟩
      · rw [List.flatten_cons, hfl, hRU]; simp
      · refine ⟨⟨f a, T.map f, rfl, by rw [hTT]; exact hT', ?_⟩, hgr⟩
        cases qs with
        | nil => simp at hfl
        | cons g qs =>
          intro g' hg'
          simp only [List.map_cons, List.head?_cons, Option.mem_def, Option.some.injEq] at hg'
          subst hg'
          obtain ⟨⟨a', t', hg, -⟩, -⟩ := hgr
          obtain ⟨c, V, rfl, rfl, rfl⟩ := List.map_eq_cons_iff.mp hg
          simp only [List.flatten_cons, List.cons_append, List.cons.injEq] at hfl
          exact ⟨_, _, rfl, by rw [hfl.1]; exact hb⟩
      · rw [hdis]; simp
      · refine ⟨fun p hp => ?_, hlab⟩
        rw [hun p (hdisj p hp)]
        simp only [assign]; rw [if_pos hp]
      · intro p hp
        rw [hRU] at hp
        rw [hun p (fun hc => hp (by simp at hc ⊢; tauto))]
        simp only [assign]
        rw [if_neg (fun hc => hp (by simp at hc ⊢; tauto))]

end Verif.Bore
