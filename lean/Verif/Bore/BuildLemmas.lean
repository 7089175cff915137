import Verif.Bore.BuildModel
import Verif.Bore.FieldProps

noncomputable section

namespace Verif.Bore

open ArrayLike

/-- The borehole created by the `Borefield` builders at `(x, y)`. -/
def newBorehole (H D rb tilt : ℝ) (o : ℝ × ℝ) (p : ℝ × ℝ) : Borehole :=
  Borehole.new H D rb p.1 p.2 (if dist0 o.1 o.2 p.1 p.2 < rb then 0 else tilt)
    (arctan2 (p.2 - o.2) (p.1 - o.1))

theorem valueAt_array (l : List ℝ) (k : ℕ) (hk : k < l.length) : valueAt (array l) k = l[k] := by
  rcases l with _ | ⟨v, _ | ⟨w, m⟩⟩
  · simp at hk
  · have : k = 0 := by simp at hk; omega
    subst this; rfl
  · show (v :: w :: m).getD k 0 = _
    rw [List.getD_eq_getElem _ _ hk]

theorem broadcast_isSome (a : ArrayLike ℝ) (n : ℕ) (h : ∀ l, a = array l → l.length = n) :
    ∃ l, a.broadcastTo n = some l := by
  cases a with
  | scalar v => exact ⟨_, rfl⟩
  | array l => exact ⟨l, broadcast_array l n (h l rfl)⟩

theorem new_isSome (n : ℕ) (H D rb x y t o : ArrayLike ℝ)
    (hx : x.atleast1d.length = n) (hy : y.atleast1d.length = n)
    (hH : ∀ l, H = array l → l.length = n) (hD : ∀ l, D = array l → l.length = n)
    (hr : ∀ l, rb = array l → l.length = n) (ht : ∀ l, t = array l → l.length = n)
    (ho : ∀ l, o = array l → l.length = n) : ∃ f, Borefield.new H D rb x y t o = some f := by
  obtain ⟨H', hH'⟩ := broadcast_isSome H n hH
  obtain ⟨D', hD'⟩ := broadcast_isSome D n hD
  obtain ⟨r', hr'⟩ := broadcast_isSome rb n hr
  obtain ⟨t', ht'⟩ := broadcast_isSome t n ht
  obtain ⟨o', ho'⟩ := broadcast_isSome o n ho
  have hfo : ∃ res, fieldOrientation o (t'.map fun v => decide (tilted v)) n = some res := by
    unfold fieldOrientation maskOrientation
    rw [List.length_map, broadcast_length _ _ _ ht', ho']
    split_ifs
    · exact ⟨_, rfl⟩
    · exact ⟨_, rfl⟩
    · exact ⟨_, rfl⟩
  obtain ⟨res, hres⟩ := hfo
  unfold Borefield.new
  simp only [hx, hy, max_self, hH', hD', hr', ht', broadcast_map _ _ _ _ ht', broadcast_array _ n hx,
    broadcast_array _ n hy, hres, Option.bind_eq_bind, Option.bind_some]
  exact ⟨_, rfl⟩

theorem finish_spec (H D rb tilt : ℝ) (o : ℝ × ℝ) (x y : List ℝ) (hxy : x.length = y.length) :
    ∃ f, finish H D rb tilt o x y = some f ∧ f.WF ∧
      f.toBoreholes = (x.zip y).map (newBorehole H D rb tilt o) := by
  obtain ⟨f, hf⟩ : ∃ f, finish H D rb tilt o x y = some f := by
    unfold finish
    apply new_isSome x.length
    · rfl
    · exact hxy.symm
    · intro l h; simp at h
    · intro l h; simp at h
    · intro l h; simp at h
    · intro l h
      split_ifs at h
      simp only [array.injEq] at h
      rw [← h]; simp [hxy]
    · intro l h
      simp only [array.injEq] at h
      rw [← h]; simp [hxy]
  refine ⟨f, hf, ?_⟩
  have hs := borefield_new_spec _ _ _ _ _ _ _ _ hf
  refine ⟨hs.1, ?_⟩
  rw [hs.2.2, hs.2.1]
  apply List.ext_getElem
  · simp [atleast1d, hxy]
  · intro k h1 h2
    have hkx : k < x.length := by simp [hxy] at h2; omega
    have hky : k < y.length := by omega
    have hz : k < (List.zipWith (fun x y => dist0 o.1 o.2 x y) x y).length := by simp; omega
    simp only [List.getElem_map, List.getElem_range, List.getElem_zip, newBorehole]
    rw [valueAt_array x k hkx, valueAt_array y k hky,
      valueAt_array _ k (by simp; omega : k < (List.zipWith (fun x y => arctan2 (y - o.2) (x - o.1)) x y).length)]
    have htilt : valueAt (if (List.zipWith (fun x y => dist0 o.1 o.2 x y) x y).any (fun d => decide (d < rb)) = true
        then array ((List.zipWith (fun x y => dist0 o.1 o.2 x y) x y).map fun d => if d < rb then 0 else tilt)
        else scalar tilt) k = if dist0 o.1 o.2 x[k] y[k] < rb then 0 else tilt := by
      split_ifs with ha hd hd
      · rw [valueAt_array _ k (by simpa using hz)]; simp [hd]
      · rw [valueAt_array _ k (by simpa using hz)]; simp only [List.getElem_map, List.getElem_zipWith]
        rw [if_neg hd]
      · exfalso
        apply ha
        rw [List.any_eq_true]
        refine ⟨_, List.getElem_mem hz, ?_⟩
        simpa using hd
      · rfl
    rw [htilt]
    simp only [List.getElem_zipWith]
    rfl

theorem zip_flatMap {α β γ : Type*} (l : List α) (f : α → List β) (g : α → List γ)
    (h : ∀ a, (f a).length = (g a).length) :
    (l.flatMap f).zip (l.flatMap g) = l.flatMap fun a => (f a).zip (g a) := by
  induction l with
  | nil => rfl
  | cons a l ih =>
    simp only [List.flatMap_cons]
    rw [List.zip_append (h a), ih]

theorem length_flatMap_eq {α β γ : Type*} (l : List α) (f : α → List β) (g : α → List γ)
    (h : ∀ a, (f a).length = (g a).length) : (l.flatMap f).length = (l.flatMap g).length := by
  induction l with
  | nil => rfl
  | cons a l ih => simp [List.flatMap_cons, ih, h a]

theorem zip_scale (a b : List ℝ) (u v : ℝ) :
    (scale a u).zip (scale b v) = (a.zip b).map fun p => (p.1 * u, p.2 * v) := by
  rw [scale, scale, List.zip_map]
  rfl

/-- Position of the grid point `(i, j)`. -/
def emb (B1 B2 : ℝ) (p : ℕ × ℕ) : ℝ × ℝ := ((p.1 : ℝ) * B1, (p.2 : ℝ) * B2)

theorem emb_injective (B1 B2 : ℝ) (h1 : B1 ≠ 0) (h2 : B2 ≠ 0) : Function.Injective (emb B1 B2) := by
  rintro ⟨i, j⟩ ⟨i', j'⟩ h
  simp only [emb, Prod.mk.injEq] at h
  have e1 := mul_right_cancel₀ h1 h.1
  have e2 := mul_right_cancel₀ h2 h.2
  rw [Prod.mk.injEq]
  exact ⟨by exact_mod_cast e1, by exact_mod_cast e2⟩

theorem zip_replicate_left {α β : Type*} (l : List β) (a : α) (n : ℕ) (h : l.length = n) :
    (List.replicate n a).zip l = l.map fun b => (a, b) := by
  subst h
  induction l with
  | nil => rfl
  | cons b l ih => simp [List.replicate_succ, ih]

theorem zip_replicate_right {α β : Type*} (l : List α) (b : β) (n : ℕ) (h : l.length = n) :
    l.zip (List.replicate n b) = l.map fun a => (a, b) := by
  subst h
  induction l with
  | nil => rfl
  | cons a l ih => simp [List.replicate_succ, ih]

theorem npRepeat_map (l : List ℕ) (f : ℕ → ℝ) (k : ℕ) :
    npRepeat (l.map f) k = l.flatMap fun j => List.replicate k (f j) := by
  simp [npRepeat, List.flatMap_map]

/-! ### Index lists -/

/-- Grid points of the rectangle, row by row. -/
def rectIdx (N1 N2 : ℕ) : List (ℕ × ℕ) :=
  (List.range N2).flatMap fun j => (List.range N1).map fun i => (i, j)

def lIdx (N1 N2 : ℕ) : List (ℕ × ℕ) :=
  ((List.range N1).map fun i => (i, 0)) ++ (List.range (N2 - 1)).map fun j => (0, j + 1)

/-- The two vertical sides, `k` rows from row 1. -/
def sidesIdx (N1 k : ℕ) : List (ℕ × ℕ) :=
  (List.range k).flatMap fun j => (List.range (min N1 2)).map fun i => (i * (N1 - 1), j + 1)

def uIdx (N1 N2 : ℕ) : List (ℕ × ℕ) := ((List.range N1).map fun i => (i, 0)) ++ sidesIdx N1 (N2 - 1)

def boxIdx (N1 N2 : ℕ) : List (ℕ × ℕ) :=
  ((List.range N1).map fun i => (i, 0)) ++ sidesIdx N1 (N2 - 2)
    ++ (List.range (nTop N1 N2)).map fun i => (i, N2 - 1)

theorem rect_zip (N1 N2 : ℕ) (B1 B2 : ℝ) :
    (rectX N1 N2 B1).zip (rectY N1 N2 B2) = (rectIdx N1 N2).map (emb B1 B2) ∧
      (rectX N1 N2 B1).length = (rectY N1 N2 B2).length := by
  constructor
  · rw [rectX, rectY, zip_scale, tile, arange, arange, npRepeat_map,
      zip_flatMap _ _ _ (by simp), rectIdx]
    simp only [List.map_flatMap, List.map_map]
    congr 1
    funext j
    rw [zip_replicate_right _ _ _ (by simp)]
    simp [Function.comp_def, emb]
  · rw [rectX, rectY, scale, scale, List.length_map, List.length_map, tile, arange, arange, npRepeat_map]
    exact length_flatMap_eq _ _ _ (by simp)

theorem row_zip (N1 : ℕ) (c : ℝ) :
    (arange N1).zip (List.replicate N1 c) = (List.range N1).map fun i : ℕ => ((i : ℝ), c) := by
  rw [zip_replicate_right _ _ _ (by simp [arange]), arange]
  simp [Function.comp_def]

theorem l_zip (N1 N2 : ℕ) (B1 B2 : ℝ) :
    (lX N1 N2 B1).zip (lY N1 N2 B2) = (lIdx N1 N2).map (emb B1 B2) ∧
      (lX N1 N2 B1).length = (lY N1 N2 B2).length := by
  constructor
  · rw [lX, lY, zip_scale, List.zip_append (by simp [arange]), row_zip,
      zip_replicate_left _ _ _ (by simp), lIdx]
    simp [Function.comp_def, emb]
  · simp [lX, lY, scale, arange]

theorem sides_zip (N1 k : ℕ) (h1 : 1 ≤ N1) :
    (scale (tile (arange (min N1 2)) k) ((N1 : ℝ) - 1)).zip
        (npRepeat ((List.range k).map fun j : ℕ => (j : ℝ) + 1) (min N1 2))
      = (sidesIdx N1 k).map (fun p => ((p.1 : ℝ), (p.2 : ℝ))) := by
  have hc : ((N1 - 1 : ℕ) : ℝ) = (N1 : ℝ) - 1 := by push_cast [Nat.cast_sub h1]; ring
  rw [npRepeat_map, tile, scale, List.map_flatMap, zip_flatMap _ _ _ (by simp [arange]), sidesIdx,
    List.map_flatMap]
  congr 1
  funext j
  rw [zip_replicate_right _ _ _ (by simp [arange]), arange]
  simp [Function.comp_def, hc]

theorem sides_len (N1 k : ℕ) :
    (scale (tile (arange (min N1 2)) k) ((N1 : ℝ) - 1)).length
      = (npRepeat ((List.range k).map fun j : ℕ => (j : ℝ) + 1) (min N1 2)).length := by
  rw [npRepeat_map, tile, scale, List.length_map]
  exact length_flatMap_eq _ _ _ (by simp [arange])

theorem u_zip (N1 N2 : ℕ) (h1 : 1 ≤ N1) (B1 B2 : ℝ) :
    (uX N1 N2 B1).zip (uY N1 N2 B2) = (uIdx N1 N2).map (emb B1 B2) ∧
      (uX N1 N2 B1).length = (uY N1 N2 B2).length := by
  constructor
  · rw [uX, uY, zip_scale, List.zip_append (by simp [arange]), row_zip, sides_zip _ _ h1, uIdx]
    simp [Function.comp_def, emb]
  · have := sides_len N1 (N2 - 1)
    simp only [uX, uY, scale, List.length_map, List.length_append] at this ⊢
    rw [this]; simp [arange]

theorem box_zip (N1 N2 : ℕ) (h1 : 1 ≤ N1) (h2 : 1 ≤ N2) (B1 B2 : ℝ) :
    (boxX N1 N2 B1).zip (boxY N1 N2 B2) = (boxIdx N1 N2).map (emb B1 B2) ∧
      (boxX N1 N2 B1).length = (boxY N1 N2 B2).length := by
  have hc : ((N2 - 1 : ℕ) : ℝ) = (N2 : ℝ) - 1 := by push_cast [Nat.cast_sub h2]; ring
  have hl := sides_len N1 (N2 - 2)
  constructor
  · rw [boxX, boxY, zip_scale, List.zip_append (by
      rw [List.length_append, List.length_append, hl]; simp [arange]),
      List.zip_append (by simp [arange]), row_zip, row_zip, sides_zip _ _ h1, boxIdx]
    simp [Function.comp_def, emb, hc]
  · simp only [boxX, boxY, scale, List.length_map, List.length_append] at hl ⊢
    rw [hl]; simp [arange]

/-! ### Contents of the index lists -/

theorem flatMap_pair_nodup {α : Type*} (l : List ℕ) (hl : l.Nodup) (f : ℕ → List α)
    (g : α → ℕ) (hg : ∀ j ∈ l, ∀ a ∈ f j, g a = j) (hf : ∀ j ∈ l, (f j).Nodup) :
    (l.flatMap f).Nodup := by
  rw [List.nodup_flatMap]
  refine ⟨hf, ?_⟩
  refine List.Pairwise.imp_of_mem ?_ hl
  intro a b ha hb hab x hx hy
  exact hab ((hg a ha x hx).symm.trans (hg b hb x hy))

theorem rectIdx_nodup (N1 N2 : ℕ) : (rectIdx N1 N2).Nodup := by
  apply flatMap_pair_nodup _ List.nodup_range _ (·.2)
  · intro j _ a ha
    obtain ⟨i, -, rfl⟩ := List.mem_map.mp ha
    rfl
  · intro j _
    exact List.Nodup.map (fun a b h => (Prod.mk.inj h).1) List.nodup_range

theorem rectIdx_mem (N1 N2 : ℕ) (p : ℕ × ℕ) : p ∈ rectIdx N1 N2 ↔ p.1 < N1 ∧ p.2 < N2 := by
  obtain ⟨i, j⟩ := p
  simp only [rectIdx, List.mem_flatMap, List.mem_range, List.mem_map, Prod.mk.injEq]
  constructor
  · rintro ⟨j', h1, i', h2, rfl, rfl⟩; exact ⟨h2, h1⟩
  · rintro ⟨h1, h2⟩; exact ⟨j, h2, i, h1, rfl, rfl⟩

theorem rectIdx_length (N1 N2 : ℕ) : (rectIdx N1 N2).length = N1 * N2 := by
  simp [rectIdx, List.length_flatMap, mul_comm]

theorem row_nodup (N c : ℕ) : ((List.range N).map fun i => (i, c)).Nodup :=
  List.Nodup.map (fun a b h => (Prod.mk.inj h).1) List.nodup_range

theorem lIdx_nodup (N1 N2 : ℕ) : (lIdx N1 N2).Nodup := by
  rw [lIdx, List.nodup_append]
  refine ⟨row_nodup _ _, List.Nodup.map (fun a b h => by simpa using h) List.nodup_range, ?_⟩
  intro a ha b hb hab
  obtain ⟨i, -, rfl⟩ := List.mem_map.mp ha
  obtain ⟨j, -, rfl⟩ := List.mem_map.mp hb
  simp at hab

theorem lIdx_mem (N1 N2 : ℕ) (h1 : 1 ≤ N1) (h2 : 1 ≤ N2) (p : ℕ × ℕ) :
    p ∈ lIdx N1 N2 ↔ p.1 < N1 ∧ p.2 < N2 ∧ (p.1 = 0 ∨ p.2 = 0) := by
  obtain ⟨i, j⟩ := p
  simp only [lIdx, List.mem_append, List.mem_range, List.mem_map, Prod.mk.injEq]
  constructor
  · rintro (⟨i', h, rfl, rfl⟩ | ⟨j', h, rfl, rfl⟩)
    · exact ⟨h, by omega, Or.inr rfl⟩
    · exact ⟨by omega, by omega, Or.inl rfl⟩
  · rintro ⟨hi, hj, h⟩
    by_cases h0 : j = 0
    · exact Or.inl ⟨i, hi, rfl, h0.symm⟩
    · exact Or.inr ⟨j - 1, by omega, by omega, by omega⟩

theorem sidesIdx_nodup (N1 k : ℕ) : (sidesIdx N1 k).Nodup := by
  apply flatMap_pair_nodup _ List.nodup_range _ (fun p => p.2 - 1)
  · intro j _ a ha
    obtain ⟨i, -, rfl⟩ := List.mem_map.mp ha
    simp
  · intro j _
    rw [List.nodup_map_iff_inj_on List.nodup_range]
    intro a ha b hb h
    rw [List.mem_range] at ha hb
    simp only [Prod.mk.injEq, and_true] at h
    by_cases h1 : N1 ≤ 1
    · omega
    · exact Nat.eq_of_mul_eq_mul_right (by omega) h

theorem sidesIdx_mem (N1 k : ℕ) (h1 : 1 ≤ N1) (p : ℕ × ℕ) :
    p ∈ sidesIdx N1 k ↔ (p.1 = 0 ∨ p.1 = N1 - 1) ∧ 1 ≤ p.2 ∧ p.2 ≤ k := by
  obtain ⟨i, j⟩ := p
  simp only [sidesIdx, List.mem_flatMap, List.mem_range, List.mem_map, Prod.mk.injEq]
  constructor
  · rintro ⟨j', h, i', h', rfl, rfl⟩
    refine ⟨?_, by omega, by omega⟩
    have : i' = 0 ∨ i' = 1 := by omega
    rcases this with rfl | rfl
    · left; simp
    · right; simp
  · rintro ⟨h, h3, h4⟩
    rcases h with rfl | rfl
    · exact ⟨j - 1, by omega, 0, by omega, by simp, by omega⟩
    · by_cases hN : N1 = 1
      · exact ⟨j - 1, by omega, 0, by omega, by simp [hN], by omega⟩
      · exact ⟨j - 1, by omega, 1, by omega, by simp, by omega⟩

theorem uIdx_nodup (N1 N2 : ℕ) (h1 : 1 ≤ N1) : (uIdx N1 N2).Nodup := by
  rw [uIdx, List.nodup_append]
  refine ⟨row_nodup _ _, sidesIdx_nodup _ _, ?_⟩
  intro a ha b hb hab
  obtain ⟨i, -, rfl⟩ := List.mem_map.mp ha
  rw [← hab, sidesIdx_mem _ _ h1] at hb
  simp at hb

theorem uIdx_mem (N1 N2 : ℕ) (h1 : 1 ≤ N1) (h2 : 1 ≤ N2) (p : ℕ × ℕ) :
    p ∈ uIdx N1 N2 ↔ p.1 < N1 ∧ p.2 < N2 ∧ (p.2 = 0 ∨ p.1 = 0 ∨ p.1 = N1 - 1) := by
  rw [uIdx, List.mem_append, sidesIdx_mem _ _ h1]
  obtain ⟨i, j⟩ := p
  simp only [List.mem_map, List.mem_range, Prod.mk.injEq]
  constructor
  · rintro (⟨i', h, rfl, rfl⟩ | h)
    · exact ⟨h, by omega, Or.inl rfl⟩
    · omega
  · rintro ⟨hi, hj, h⟩
    by_cases h0 : j = 0
    · exact Or.inl ⟨i, hi, rfl, h0.symm⟩
    · right; omega

theorem boxIdx_nodup (N1 N2 : ℕ) (h1 : 1 ≤ N1) (h2 : 1 ≤ N2) : (boxIdx N1 N2).Nodup := by
  rw [boxIdx, List.nodup_append, List.nodup_append]
  refine ⟨⟨row_nodup _ _, sidesIdx_nodup _ _, ?_⟩, row_nodup _ _, ?_⟩
  · intro a ha b hb hab
    obtain ⟨i, -, rfl⟩ := List.mem_map.mp ha
    rw [← hab, sidesIdx_mem _ _ h1] at hb
    simp at hb
  · intro a ha b hb hab
    obtain ⟨i, hi, rfl⟩ := List.mem_map.mp hb
    rw [hab, List.mem_append, sidesIdx_mem _ _ h1] at ha
    rw [List.mem_range, nTop] at hi
    have hN2 : N2 > 1 := by
      by_contra hc
      rw [if_neg hc] at hi
      omega
    rcases ha with ha | ha
    · obtain ⟨i', -, h⟩ := List.mem_map.mp ha
      simp only [Prod.mk.injEq] at h
      omega
    · simp only at ha; omega

theorem boxIdx_mem (N1 N2 : ℕ) (h1 : 1 ≤ N1) (h2 : 1 ≤ N2) (p : ℕ × ℕ) :
    p ∈ boxIdx N1 N2 ↔ p.1 < N1 ∧ p.2 < N2 ∧
      (p.2 = 0 ∨ p.2 = N2 - 1 ∨ p.1 = 0 ∨ p.1 = N1 - 1) := by
  rw [boxIdx, List.mem_append, List.mem_append, sidesIdx_mem _ _ h1]
  obtain ⟨i, j⟩ := p
  simp only [List.mem_map, List.mem_range, Prod.mk.injEq, nTop]
  constructor
  · rintro ((⟨i', h, rfl, rfl⟩ | h) | ⟨i', h, rfl, rfl⟩)
    · exact ⟨h, by omega, Or.inl rfl⟩
    · omega
    · by_cases hN : N2 > 1
      · rw [if_pos hN] at h; omega
      · rw [if_neg hN] at h; omega
  · rintro ⟨hi, hj, h⟩
    by_cases h0 : j = 0
    · exact Or.inl (Or.inl ⟨i, hi, rfl, h0.symm⟩)
    · by_cases hj1 : j = N2 - 1
      · right
        rw [if_pos (by omega)]
        exact ⟨i, hi, rfl, hj1.symm⟩
      · left; right; omega

end Verif.Bore
