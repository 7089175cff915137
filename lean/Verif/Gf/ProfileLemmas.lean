import Verif.Tac
import Verif.Gf.ProfileModel
import Verif.Sol.DetLemmas
import Verif.Sol.SolveProps

/-!
# Lemmas about the curves that `gFunction` draws
-/

noncomputable section

namespace Verif.Gf

open Bore Sol

/-- Lengths of the sources: for each borehole of length `L`, the ratios times `L`. -/
def sourceLengths (Ls : List ℝ) (rs : List (List ℝ)) : List ℝ := (List.zip Ls rs).flatMap fun x => x.2.map (· * x.1)

theorem i0_cons (n : ℕ) (ns : List ℕ) (k : ℕ) : i0 (n :: ns) (k + 1) = n + i0 ns k := by simp [i0]

theorem i1_cons (n : ℕ) (ns : List ℕ) (k : ℕ) : i1 (n :: ns) (k + 1) = n + i1 ns k := by simp [i1]

theorem slice_append {α : Type} (x y : List α) (a b : ℕ) : slice (x.length + a) (x.length + b) (x ++ y) = slice a b y := by
  unfold slice
  rw [List.drop_append, List.drop_eq_nil_of_le (by omega), Nat.add_sub_cancel_left, List.nil_append, Nat.add_sub_add_left]

theorem slice_first {α : Type} (x y : List α) : slice 0 x.length (x ++ y) = x := by simp [slice]

theorem dot_append (a b c d : List ℝ) (h : a.length = c.length) : (List.zipWith (· * ·) (a ++ b) (c ++ d)).sum = (List.zipWith (· * ·) a c).sum + (List.zipWith (· * ·) b d).sum := by
  rw [List.zipWith_append h, List.sum_append]

theorem dot_scale (L : ℝ) (r x : List ℝ) : (List.zipWith (· * ·) (r.map (· * L)) x).sum = L * (List.zipWith (· * ·) x r).sum := by
  induction r generalizing x with
  | nil => simp
  | cons a r ih =>
    cases x with
    | nil => simp
    | cons v x => simp only [List.map_cons, List.zipWith_cons_cons, List.sum_cons, ih]; ring

/-- The averages over the boreholes, weighted by the lengths of the boreholes, add to the values of the sources weighted by their lengths. -/
theorem averages_total (Ls : List ℝ) (rs : List (List ℝ)) (hL : Ls.length = rs.length) (x : List ℝ) (hx : x.length = (rs.map List.length).sum) :
    ∃ v : List ℝ, v.length = rs.length ∧
      (∀ (i : ℕ) (r : List ℝ), rs[i]? = some r → ratioSum r (slice (i0 (rs.map List.length) i) (i1 (rs.map List.length) i) x) = v[i]?) ∧
      (List.zipWith (· * ·) Ls v).sum = (List.zipWith (· * ·) (sourceLengths Ls rs) x).sum := by
  induction rs generalizing Ls x with
  | nil => exact ⟨[], rfl, fun i r h => by simp at h, by simp [sourceLengths]⟩
  | cons r rs ih =>
    cases Ls with
    | nil => simp at hL
    | cons L Ls =>
      obtain ⟨y, z, hxy, hy⟩ : ∃ y z, x = y ++ z ∧ y.length = r.length :=
        ⟨x.take r.length, x.drop r.length, (List.take_append_drop _ _).symm, by
          rw [List.length_take]; simp only [List.map_cons, List.sum_cons] at hx; omega⟩
      subst hxy
      have hz : z.length = (rs.map List.length).sum := by
        simp only [List.map_cons, List.sum_cons, List.length_append] at hx; omega
      obtain ⟨v, h1, h2, h3⟩ := ih Ls (by simpa using hL) z hz
      refine ⟨(List.zipWith (· * ·) y r).sum :: v, by simp [h1], fun i s hs => ?_, ?_⟩
      · cases i with
        | zero =>
          have : r = s := by simpa using hs
          subst this
          have e0 : i0 ((r :: rs).map List.length) 0 = 0 := by simp [i0]
          have e1 : i1 ((r :: rs).map List.length) 0 = y.length := by simp [i1, hy]
          rw [e0, e1, slice_first, ratioSum, if_pos hy]
          rfl
        | succ i =>
          rw [List.map_cons, i0_cons, i1_cons, ← hy, slice_append, List.getElem?_cons_succ]
          exact h2 i s (by simpa using hs)
      · have e : sourceLengths (L :: Ls) (r :: rs) = r.map (· * L) ++ sourceLengths Ls rs := by simp [sourceLengths]
        rw [e, dot_append _ _ _ _ (by simp [hy]), dot_scale, List.zipWith_cons_cons, List.sum_cons, h3]

theorem sourceLengths_length (Ls : List ℝ) (rs : List (List ℝ)) (hL : Ls.length = rs.length) : (sourceLengths Ls rs).length = (rs.map List.length).sum := by
  induction rs generalizing Ls with
  | nil => simp [sourceLengths]
  | cons r rs ih =>
    cases Ls with
    | nil => simp at hL
    | cons L Ls =>
      have := ih Ls (by simpa using hL)
      simp only [sourceLengths] at this ⊢
      simp only [List.zip_cons_cons, List.flatMap_cons, List.length_append, List.length_map, this, List.map_cons, List.sum_cons]

/-- With ratios that add to one, the total length of the sources is the total length of the boreholes. -/
theorem sourceLengths_sum (Ls : List ℝ) (rs : List (List ℝ)) (hL : Ls.length = rs.length) (h1 : ∀ r ∈ rs, r.sum = 1) : (sourceLengths Ls rs).sum = Ls.sum := by
  induction rs generalizing Ls with
  | nil =>
    have : Ls = [] := List.length_eq_zero_iff.mp (by simpa using hL)
    simp [sourceLengths, this]
  | cons r rs ih =>
    cases Ls with
    | nil => simp at hL
    | cons L Ls =>
      have e : sourceLengths (L :: Ls) (r :: rs) = r.map (· * L) ++ sourceLengths Ls rs := by simp [sourceLengths]
      rw [e, List.sum_append, ih Ls (by simpa using hL) fun s hs => h1 s (List.mem_cons_of_mem _ hs), List.sum_map_mul_right, List.map_id', h1 r List.mem_cons_self]
      simp

theorem dot_ofFn {n : ℕ} (H x : Fin n → ℝ) : (List.zipWith (· * ·) (List.ofFn H) (List.ofFn x)).sum = ∑ i, H i * x i := by
  have e : List.zipWith (· * ·) (List.ofFn H) (List.ofFn x) = List.ofFn fun i => H i * x i := by
    apply List.ext_getElem <;> simp
  rw [e, List.sum_ofFn]

/-- The curves of all boreholes. -/
theorem curves_total {n : ℕ} (Ls : List ℝ) (rs : List (List ℝ)) (hL : Ls.length = rs.length) (H : Fin n → ℝ) (hH : List.ofFn H = sourceLengths Ls rs) (X : List (Fin n → ℝ)) :
    ∃ c : List (List ℝ), c.length = rs.length ∧ (∀ x ∈ c, x.length = X.length) ∧
      (∀ i < rs.length, averages ⟨rs.map List.length, rs⟩ (X.map List.ofFn) i = c[i]?) ∧
      ∀ (k : ℕ) (x : Fin n → ℝ), X[k]? = some x → (List.zipWith (· * ·) Ls (c.map fun y => y.getD k 0)).sum = ∑ j, H j * x j := by
  have hn : n = (rs.map List.length).sum := by rw [← sourceLengths_length Ls rs hL, ← hH, List.length_ofFn]
  have hv : ∀ x : Fin n → ℝ, ∃ v : List ℝ, v.length = rs.length ∧
      (∀ (i : ℕ) (r : List ℝ), rs[i]? = some r → ratioSum r (slice (i0 (rs.map List.length) i) (i1 (rs.map List.length) i) (List.ofFn x)) = v[i]?) ∧
      (List.zipWith (· * ·) Ls v).sum = ∑ j, H j * x j := fun x => by
    obtain ⟨v, h1, h2, h3⟩ := averages_total Ls rs hL (List.ofFn x) (by rw [List.length_ofFn, hn])
    exact ⟨v, h1, h2, by rw [h3, ← hH, dot_ofFn]⟩
  choose v h1 h2 h3 using hv
  refine ⟨(List.range rs.length).map fun i => X.map fun x => (v x).getD i 0, by simp, fun x hx => ?_, fun i hi => ?_, fun k x hk => ?_⟩
  · obtain ⟨i, -, rfl⟩ := List.mem_map.mp hx
    simp
  · have hr : rs[i]? = some rs[i] := List.getElem?_eq_getElem hi
    have hns : (rs.map List.length)[i]? = some rs[i].length := by simp [hi]
    have e : averages ⟨rs.map List.length, rs⟩ (X.map List.ofFn) i =
        (X.map List.ofFn).mapM fun x => ratioSum rs[i] (slice (i0 (rs.map List.length) i) (i1 (rs.map List.length) i) x) := by
      unfold averages
      rw [hns, hr]
    have hc : ((List.range rs.length).map fun i => X.map fun x => (v x).getD i 0)[i]? = some (X.map fun x => (v x).getD i 0) := by simp [hi]
    rw [e, hc]
    clear e hc
    induction X with
    | nil => rfl
    | cons x X ih =>
      have hx : ratioSum rs[i] (slice (i0 (rs.map List.length) i) (i1 (rs.map List.length) i) (List.ofFn x)) = some ((v x).getD i 0) := by
        rw [h2 x i _ hr, List.getD_eq_getElem?_getD, List.getElem?_eq_getElem (by rw [h1]; exact hi)]
        rfl
      rw [List.map_cons, List.mapM_cons, hx, ih]
      rfl
  · rw [← h3 x]
    congr 2
    apply List.ext_getElem
    · simp [h1]
    · intro i hi _
      have : i < (v x).length := by rw [h1]; simpa using hi
      simp [hk, this]

end Verif.Gf
