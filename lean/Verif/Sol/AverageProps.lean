import Verif.Sol.SolveProps

/-!
# Property C108 (solver): a relation between g-function and wall temperatures holds at all times once it holds at each step
-/

noncomputable section

namespace Verif.Sol

variable {n : ℕ}

/-- At every time the g-function and the wall temperatures are those of a step of the solver, multiplied by a common factor before the threshold. -/
theorem mift_values {H : Fin n → ℝ} {f : Flow n} {resp : List ℝ → Fin n → Fin n → List ℝ} {time : List ℝ} {thr : ℝ} {g : List ℝ} {Qs : List (Fin n → ℝ)} {Ts : Fin n → List ℝ}
    (h : mift H f resp time thr = some (g, Qs, Ts)) {k : ℕ} (hk : k < time.length) :
    ∃ past p x c, miftStep H f (timeLong time thr) (resp (timeLong time thr)) past p = some x ∧ g[k]? = some (x.g * c) ∧ (∀ i, (Ts i)[k]? = some (x.T i * c)) ∧ (c = 1 ∨ c = time[k] / thr) := by
  unfold mift at h
  dsimp only at h
  split at h
  · simp at h
  · rename_i l hl
    have e := Option.some.inj h
    simp only [Prod.mk.injEq] at e
    obtain ⟨rfl, rfl, rfl⟩ := e
    obtain ⟨hlen, hst⟩ := miftLoop_spec hl
    obtain ⟨g1, g2, g3⟩ := linearized time thr (l.map MiftState.g) (by simp [hlen]) 0 (fun x0 t => x0 * t / thr) _ (rfl : linearize time thr (l.map MiftState.g) = _)
    have hTs := fun i => linearized time thr (l.map fun x => x.T i) (by simp [hlen]) 0 (fun x0 t => x0 * t / thr) _ (rfl : linearize time thr (l.map fun x => x.T i) = _)
    by_cases hkp : k < pLong time thr
    · obtain ⟨a, ha, hga⟩ := g2 k _ (List.getElem?_eq_getElem hk) hkp
      rw [List.getElem?_map] at ha
      obtain ⟨x, hx, rfl⟩ := Option.map_eq_some_iff.mp ha
      refine ⟨_, _, x, time[k] / thr, hst 0 x hx, by rw [hga, mul_div_assoc], fun i => ?_, Or.inr rfl⟩
      obtain ⟨b, hb, hgb⟩ := (hTs i).2.1 k _ (List.getElem?_eq_getElem hk) hkp
      rw [List.getElem?_map, hx] at hb
      rw [hgb, ← Option.some.inj hb, mul_div_assoc]
    · have hg := g3 k (by omega)
      have hlt : k + (timeLong time thr).length - time.length < (l.map MiftState.g).length := by
        by_contra hc
        have hno := List.getElem?_eq_none_iff.mpr (not_lt.mp hc)
        rw [hno] at hg
        have := List.getElem?_eq_none_iff.mp hg
        omega
      rw [List.length_map] at hlt
      obtain ⟨x, hx⟩ : ∃ x, l[k + (timeLong time thr).length - time.length]? = some x := ⟨_, List.getElem?_eq_getElem hlt⟩
      refine ⟨_, _, x, 1, hst _ x hx, by rw [hg, List.getElem?_map, hx, mul_one]; rfl, fun i => by rw [(hTs i).2.2 k (by omega), List.getElem?_map, hx, mul_one]; rfl, Or.inl rfl⟩

/-- When the value of every step is a fixed linear combination of its wall temperatures, so is the g-function at every time, also before the threshold. -/
theorem mift_average {H : Fin n → ℝ} {f : Flow n} {resp : List ℝ → Fin n → Fin n → List ℝ} {time : List ℝ} {thr : ℝ} {g : List ℝ} {Qs : List (Fin n → ℝ)} {Ts : Fin n → List ℝ}
    (h : mift H f resp time thr = some (g, Qs, Ts)) (w : Fin n → ℝ)
    (hw : ∀ past p x, miftStep H f (timeLong time thr) (resp (timeLong time thr)) past p = some x → x.g = ∑ i, w i * x.T i) :
    ∀ k < time.length, ∃ (v : ℝ) (T : Fin n → ℝ), g[k]? = some v ∧ (∀ i, (Ts i)[k]? = some (T i)) ∧ v = ∑ i, w i * T i := by
  intro k hk
  obtain ⟨past, p, x, c, hx, hg, hT, -⟩ := mift_values h hk
  refine ⟨_, _, hg, hT, ?_⟩
  rw [hw past p x hx, Finset.sum_mul]
  exact Finset.sum_congr rfl fun i _ => by ring

/-- An average lies between its extremes. -/
theorem average_between (w T : Fin n → ℝ) (hw : ∀ i, 0 ≤ w i) (hs : ∑ i, w i = 1) : ∃ i j, T i ≤ ∑ i, w i * T i ∧ ∑ i, w i * T i ≤ T j := by
  have hn : (Finset.univ : Finset (Fin n)).Nonempty := by
    by_contra hc
    rw [Finset.not_nonempty_iff_eq_empty] at hc
    rw [hc] at hs
    simp at hs
  obtain ⟨i, -, hi⟩ := Finset.exists_min_image Finset.univ T hn
  obtain ⟨j, -, hj⟩ := Finset.exists_max_image Finset.univ T hn
  refine ⟨i, j, ?_, ?_⟩
  · calc T i = ∑ k, w k * T i := by rw [← Finset.sum_mul, hs, one_mul]
      _ ≤ _ := Finset.sum_le_sum fun k hk => mul_le_mul_of_nonneg_left (hi k hk) (hw k)
  · calc _ ≤ ∑ k, w k * T j := Finset.sum_le_sum fun k hk => mul_le_mul_of_nonneg_left (hj k hk) (hw k)
      _ = T j := by rw [← Finset.sum_mul, hs, one_mul]

end Verif.Sol
