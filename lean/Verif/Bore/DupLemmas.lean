import Verif.Bore.DupModel

noncomputable section

namespace Verif.Bore

/-- Condensed index of the pair `(i, j)` among `n` points. -/
def cidx : ℕ → ℕ → ℕ → ℕ
  | _, 0, j => j - 1
  | n, i + 1, j => (n - 1) + cidx (n - 1) i (j - 1)

theorem cidx_closed (n i j : ℕ) (hij : i < j) (hj : j < n) :
    2 * (cidx n i j : ℤ) = n * (n - 1) - (n - i) * (n - i - 1) + 2 * (j - i - 1) := by
  induction i generalizing n j with
  | zero =>
    simp only [cidx]
    push_cast [Nat.cast_sub (by omega : 1 ≤ j)]
    ring
  | succ i ih =>
    have h := ih (n - 1) (j - 1) (by omega) (by omega)
    rw [cidx]
    push_cast [Nat.cast_sub (by omega : 1 ≤ n), Nat.cast_sub (by omega : 1 ≤ j)] at h ⊢
    rw [mul_add, h]
    ring

theorem pdist_get (l : List Borehole) (i j : ℕ) (hij : i < j) (hj : j < l.length) :
    (pdist l)[cidx l.length i j]? = some (planDist (l[i]'(by omega)) l[j]) := by
  induction l generalizing i j with
  | nil => simp at hj
  | cons b l ih =>
    rw [List.length_cons] at hj
    obtain ⟨j, rfl⟩ : ∃ m, j = m + 1 := ⟨j - 1, by omega⟩
    rw [pdist]
    cases i with
    | zero =>
      simp only [cidx, Nat.add_sub_cancel]
      rw [List.getElem?_append_left (by simp; omega)]
      simp [List.getElem?_eq_getElem (by omega : j < l.length)]
    | succ i =>
      simp only [cidx, List.length_cons, Nat.add_sub_cancel]
      rw [List.getElem?_append_right (by simp)]
      simp only [List.length_map, Nat.add_sub_cancel_left]
      rw [ih i j (by omega) (by omega)]
      simp

theorem pdist_surj (l : List Borehole) (k : ℕ) (hk : k < (pdist l).length) :
    ∃ i j, i < j ∧ j < l.length ∧ cidx l.length i j = k := by
  induction l generalizing k with
  | nil => simp [pdist] at hk
  | cons b l ih =>
    simp only [pdist, List.length_append, List.length_map] at hk
    by_cases h : k < l.length
    · exact ⟨0, k + 1, by omega, by simpa using h, by simp [cidx]⟩
    · obtain ⟨i, j, h1, h2, h3⟩ := ih (k - l.length) (by omega)
      refine ⟨i + 1, j + 1, by omega, by simpa using h2, ?_⟩
      simp only [cidx, List.length_cons, Nat.add_sub_cancel, h3]
      omega

theorem pyInt_int (z : ℤ) : pyInt (z : ℝ) = z := by
  unfold pyInt; split_ifs <;> simp

theorem recoverI_cidx (n i j : ℕ) (hij : i < j) (hj : j < n) : recoverI n (cidx n i j) = i := by
  have hc := cidx_closed n i j hij hj
  have hcR : (2 : ℝ) * (cidx n i j : ℝ) = n * (n - 1) - (n - i) * (n - i - 1) + 2 * (j - i - 1) := by
    exact_mod_cast hc
  have hm : ((i : ℝ) + 1 ≤ j) := by exact_mod_cast hij
  have hn : ((j : ℝ) + 1 ≤ n) := by exact_mod_cast hj
  have hfl : ⌊Real.sqrt (-8 * (cidx n i j : ℝ) + 4 * (n : ℝ) * ((n : ℝ) - 1) - 7) / 2 - 1 / 2⌋
      = (n : ℤ) - 2 - i := by
    rw [Int.floor_eq_iff]
    push_cast
    have hval : -8 * (cidx n i j : ℝ) + 4 * (n : ℝ) * ((n : ℝ) - 1) - 7
        = 4 * ((n : ℝ) - i) * (n - i - 1) - 8 * (j - i - 1) - 7 := by linear_combination -4 * hcR
    rw [hval]
    constructor
    · have : 2 * ((n : ℝ) - i) - 3 ≤ Real.sqrt (4 * ((n : ℝ) - i) * (n - i - 1) - 8 * (j - i - 1) - 7) := by
        apply Real.le_sqrt_of_sq_le
        nlinarith
      linarith
    · have : Real.sqrt (4 * ((n : ℝ) - i) * (n - i - 1) - 8 * (j - i - 1) - 7) < 2 * ((n : ℝ) - i) - 1 := by
        rw [Real.sqrt_lt' (by linarith)]
        nlinarith
      linarith
  rw [recoverI, hfl]
  ring

theorem recover_cidx (n i j : ℕ) (hij : i < j) (hj : j < n) :
    recover n (cidx n i j) = ((i : ℤ), (j : ℤ)) := by
  have hc := cidx_closed n i j hij hj
  have hcR : (2 : ℝ) * (cidx n i j : ℝ) = n * (n - 1) - (n - i) * (n - i - 1) + 2 * (j - i - 1) := by
    exact_mod_cast hc
  unfold recover
  rw [recoverI_cidx n i j hij hj, pyInt_int]
  have : recoverJ n (cidx n i j) (i : ℤ) = ((j : ℤ) : ℝ) := by
    unfold recoverJ
    push_cast
    linear_combination hcR / 2
  rw [this, pyInt_int]

theorem maxRadius_spec (l : List Borehole) (r : ℝ) (h : maxRadius l = some r) :
    (∃ b ∈ l, b.rb = r) ∧ ∀ b ∈ l, b.rb ≤ r := by
  cases l with
  | nil => simp [maxRadius] at h
  | cons b l =>
    simp only [maxRadius, Option.some.injEq] at h
    have : ∀ (l : List Borehole) (m : ℝ), let v := l.foldl (fun m c => max m c.rb) m
        (v = m ∨ ∃ b ∈ l, b.rb = v) ∧ m ≤ v ∧ ∀ b ∈ l, b.rb ≤ v := by
      intro l
      induction l with
      | nil => intro m; simp
      | cons c l ih =>
        intro m
        obtain ⟨h1, h2, h3⟩ := ih (max m c.rb)
        simp only [List.foldl_cons]
        refine ⟨?_, le_trans (le_max_left _ _) h2, ?_⟩
        · rcases h1 with h1 | ⟨b, hb, h1⟩
          · rcases max_choice m c.rb with hm | hm
            · left; rw [h1, hm]
            · right; exact ⟨c, by simp, by rw [h1, hm]⟩
          · right; exact ⟨b, by simp [hb], h1⟩
        · intro b hb
          rcases List.mem_cons.mp hb with rfl | hb
          · exact le_trans (le_max_right _ _) h2
          · exact h3 b hb
    obtain ⟨h1, h2, h3⟩ := this l b.rb
    rw [h] at h1 h2 h3
    constructor
    · rcases h1 with h1 | ⟨c, hc, h1⟩
      · exact ⟨b, by simp, h1.symm⟩
      · exact ⟨c, by simp [hc], h1⟩
    · intro c hc
      rcases List.mem_cons.mp hc with rfl | hc
      · exact h2
      · exact h3 c hc

theorem maxRadius_unique (l : List Borehole) (r : ℝ) (h1 : ∃ b ∈ l, b.rb = r)
    (h2 : ∀ b ∈ l, b.rb ≤ r) : maxRadius l = some r := by
  cases hm : maxRadius l with
  | none =>
    cases l with
    | nil => simp at h1
    | cons b l => simp [maxRadius] at hm
  | some s =>
    obtain ⟨⟨b, hb, hbs⟩, h4⟩ := maxRadius_spec l s hm
    obtain ⟨c, hc, hcr⟩ := h1
    congr 1
    apply le_antisymm
    · rw [← hbs]; exact h2 b hb
    · rw [← hcr]; exact h4 c hc

end Verif.Bore
