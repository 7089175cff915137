import Verif.Sol.SolveModel
import Verif.Tac

/-!
# The solution when all times and all lengths are multiplied by factors
-/

noncomputable section

namespace Verif.Sol

open Matrix Bore

variable {lam : ℝ}

theorem pLong_scale (hl : 0 < lam) (time : List ℝ) (thr : ℝ) : pLong (time.map (lam * ·)) (lam * thr) = pLong time thr := by
  unfold pLong
  rw [List.takeWhile_map, List.length_map]
  congr 2
  funext t
  simp only [Function.comp_apply, mul_le_mul_iff_right₀ hl]

theorem timeLong_scale (hl : 0 < lam) (time : List ℝ) (thr : ℝ) : timeLong (time.map (lam * ·)) (lam * thr) = (timeLong time thr).map (lam * ·) := by
  unfold timeLong
  rw [pLong_scale hl]
  split_ifs
  · rw [List.map_cons, List.map_drop]
  · rfl

theorem linearize_scale (hl : 0 < lam) (time : List ℝ) (thr : ℝ) (x : List ℝ) : linearize (time.map (lam * ·)) (lam * thr) x = linearize time thr x := by
  unfold linearize
  rw [pLong_scale hl, ← List.map_take, List.map_map]
  have : (fun t => x.headD 0 * t / (lam * thr)) ∘ (lam * ·) = fun t => x.headD 0 * t / thr := by
    funext t
    simp only [Function.comp_apply]
    rw [mul_left_comm, mul_div_mul_left _ _ hl.ne']
  rw [this]

theorem linearizeQ_scale {n : ℕ} (hl : 0 < lam) (time : List ℝ) (thr : ℝ) (x : List (Fin n → ℝ)) : linearizeQ (time.map (lam * ·)) (lam * thr) x = linearizeQ time thr x := by
  unfold linearizeQ
  rw [pLong_scale hl, ← List.map_take, List.map_map]
  have : (fun (t : ℝ) (i : Fin n) => 1 + (x.headD 0 i - 1) * t / (lam * thr)) ∘ (lam * ·) = fun t i => 1 + (x.headD 0 i - 1) * t / thr := by
    funext t i
    simp only [Function.comp_apply]
    rw [mul_left_comm, mul_div_mul_left _ _ hl.ne']
  rw [this]

theorem diffsFrom_scale (a : ℝ) (l : List ℝ) : diffsFrom (lam * a) (l.map (lam * ·)) = (diffsFrom a l).map (lam * ·) := by
  induction l generalizing a with
  | nil => rfl
  | cons t l ih => simp only [List.map_cons, diffsFrom, ih, mul_sub]

theorem diffs_scale (l : List ℝ) : diffs (l.map (lam * ·)) = (diffs l).map (lam * ·) := by
  cases l with
  | nil => rfl
  | cons t l => simp only [List.map_cons, diffs, diffsFrom_scale]

theorem cumsumFrom_scale (a : ℝ) (l : List ℝ) : cumsumFrom (lam * a) (l.map (lam * ·)) = (cumsumFrom a l).map (lam * ·) := by
  induction l generalizing a with
  | nil => rfl
  | cons t l ih => simp only [List.map_cons, cumsumFrom, ← mul_add, ih]

/-- A point with its coordinates multiplied by factors. -/
def stretch (lam mu : ℝ) (p : ℝ × ℝ) : ℝ × ℝ := (lam * p.1, mu * p.2)

theorem line_scale (hl : 0 < lam) (mu : ℝ) (p q : ℝ × ℝ) (x : ℝ) : line (stretch lam mu p) (stretch lam mu q) (lam * x) = mu * line p q x := by
  unfold line stretch
  dsimp only
  rw [← mul_sub, ← mul_sub, ← mul_sub]
  rcases eq_or_ne (q.1 - p.1) 0 with h | h
  · simp [h]
  · field_simp

theorem interpGo_scale (hl : 0 < lam) (mu : ℝ) (x : ℝ) (p : ℝ × ℝ) (l : List (ℝ × ℝ)) :
    interpGo (lam * x) (stretch lam mu p) (l.map (stretch lam mu)) = mu * interpGo x p l := by
  induction l generalizing p with
  | nil => rfl
  | cons q l ih =>
    cases l with
    | nil => simp only [List.map_cons, List.map_nil, interpGo, line_scale hl]
    | cons r l =>
      have := ih q
      simp only [List.map_cons, interpGo] at this ⊢
      rw [show (stretch lam mu q).1 = lam * q.1 from rfl]
      simp only [mul_le_mul_iff_right₀ hl]
      split_ifs
      · exact line_scale hl mu p q x
      · exact this

theorem interp_scale (hl : 0 < lam) (mu : ℝ) (pts : List (ℝ × ℝ)) (x : ℝ) : interp (pts.map (stretch lam mu)) (lam * x) = (interp pts x).map (mu * ·) := by
  cases pts with
  | nil => rfl
  | cons p l =>
    unfold interp
    simp only [List.map_cons]
    have e : ((l.map (stretch lam mu)).getLastD (stretch lam mu p)).1 = lam * (l.getLastD p).1 := by
      rw [List.getLastD_map]
      rfl
    rw [e, show (stretch lam mu p).1 = lam * p.1 from rfl]
    simp only [mul_le_mul_iff_right₀ hl]
    split_ifs
    · rw [interpGo_scale hl]; rfl
    · rfl

theorem mapM_scale {f g : ℝ → Option ℝ} (l : List ℝ) (h : ∀ x ∈ l, g (lam * x) = (f x).map (lam * ·)) : (l.map (lam * ·)).mapM g = (l.mapM f).map fun a => a.map (lam * ·) := by
  induction l with
  | nil => rfl
  | cons x l ih =>
    rw [List.map_cons, List.mapM_cons, List.mapM_cons, h x List.mem_cons_self, ih fun y hy => h y (List.mem_cons_of_mem _ hy)]
    cases f x <;> cases l.mapM f <;> rfl

theorem zip_scale (a b : List ℝ) : List.zip (a.map (lam * ·)) (b.map (lam * ·)) = (List.zip a b).map (stretch lam lam) := by
  rw [List.zip_map]; rfl

theorem reconstruct_scale (hl : 0 < lam) (time Q : List ℝ) : reconstruct (time.map (lam * ·)) Q = reconstruct time Q := by
  cases time with
  | nil => rfl
  | cons t0 ts =>
    have e0 := diffs_scale (lam := lam) (t0 :: ts)
    simp only [List.map_cons] at e0
    unfold reconstruct
    simp only [List.map_cons, List.length_cons, List.length_map]
    split_ifs with hq
    · rfl
    rw [e0]
    have e1 : (0 : ℝ) :: cumsumFrom 0 ((diffs (t0 :: ts)).map (lam * ·)).reverse = (0 :: cumsumFrom 0 (diffs (t0 :: ts)).reverse).map (lam * ·) := by
      rw [← List.map_reverse, List.map_cons, ← cumsumFrom_scale, mul_zero]
    have e2 : (0 : ℝ) :: cumsumFrom 0 (List.zipWith (· * ·) Q ((diffs (t0 :: ts)).map (lam * ·))) = (0 :: cumsumFrom 0 (List.zipWith (· * ·) Q (diffs (t0 :: ts)))).map (lam * ·) := by
      rw [List.map_cons, ← cumsumFrom_scale, mul_zero]
      congr 2
      rw [List.zipWith_map_right, List.map_zipWith]
      congr 1
      funext a b
      ring
    have e3 : (0 : ℝ) :: (lam * t0 :: ts.map (lam * ·) ++ [(ts.map (lam * ·)).getLastD (lam * t0) + lam * t0]) = (0 :: (t0 :: ts ++ [ts.getLastD t0 + t0])).map (lam * ·) := by
      rw [List.getLastD_map]
      simp [mul_add]
    rw [e1, e2, e3]
    generalize diffs (t0 :: ts) = dt
    generalize (0 : ℝ) :: (t0 :: ts ++ [ts.getLastD t0 + t0]) = T
    generalize hF : (0 : ℝ) :: cumsumFrom 0 (List.zipWith (· * ·) Q dt) = F
    generalize (0 : ℝ) :: cumsumFrom 0 dt.reverse = R
    have e4 : List.zip (T.map (lam * ·)) (F.map (lam * ·) ++ [(F.map (lam * ·)).getLastD 0]) = (List.zip T (F ++ [F.getLastD 0])).map (stretch lam lam) := by
      rw [← zip_scale]
      congr 1
      have h0 : (F.map (lam * ·)).getLastD 0 = lam * F.getLastD 0 := by
        have := List.getLastD_map (f := (lam * ·)) (l := F) (a := (0 : ℝ))
        rwa [mul_zero] at this
      rw [List.map_append, h0]
      rfl
    rw [e4, ← List.map_tail, ← List.map_dropLast, mapM_scale (f := interp (List.zip T (F ++ [F.getLastD 0]))) _ fun x _ => interp_scale hl lam _ x,
      mapM_scale (f := interp (List.zip T (F ++ [F.getLastD 0]))) _ fun x _ => interp_scale hl lam _ x]
    cases R.tail.mapM (interp (List.zip T (F ++ [F.getLastD 0]))) with
    | none => rfl
    | some a =>
      cases R.dropLast.mapM (interp (List.zip T (F ++ [F.getLastD 0]))) with
      | none => rfl
      | some b =>
        simp only [Option.map_some]
        congr 1
        rw [← List.map_reverse]
        have : ∀ x y : ℝ, lam * x - lam * y = lam * (x - y) := fun x y => by ring
        have h2 : ∀ x y : ℝ, lam * x / (lam * y) = x / y := fun x y => mul_div_mul_left _ _ hl.ne'
        rw [List.zipWith_map (l₁ := a)]
        simp only [this]
        rw [← List.map_zipWith (f := fun x => lam * x) (g := fun x y => x - y), List.zipWith_map]
        simp only [h2]

theorem linsolve_rows {ι : Type*} [Fintype ι] [DecidableEq ι] (A : Matrix ι ι ℝ) (B d : ι → ℝ) (hd : ∀ i, d i ≠ 0) : linsolve (of fun i j => d i * A i j) (fun i => d i * B i) = linsolve A B := by
  have e : (of fun i j => d i * A i j) = diagonal d * A := by
    ext i j
    simp [diagonal_mul]
  have hu : IsUnit (diagonal d).det := by
    rw [det_diagonal, isUnit_iff_ne_zero]
    exact Finset.prod_ne_zero_iff.mpr fun i _ => hd i
  have e2 : (fun i => d i * B i) = diagonal d *ᵥ B := by
    funext i
    rw [mulVec_diagonal]
  unfold linsolve
  rw [e, e2, det_mul]
  have hiff : IsUnit ((diagonal d).det * A.det) ↔ IsUnit A.det := by
    rw [IsUnit.mul_iff]
    exact ⟨fun h => h.2, fun h => ⟨hu, h⟩⟩
  by_cases h : IsUnit A.det
  · rw [if_pos h, if_pos (hiff.mpr h), Matrix.mul_inv_rev, mulVec_mulVec, mul_assoc, nonsing_inv_mul _ hu, mul_one]
  · rw [if_neg h, if_neg fun hc => h (hiff.mp hc)]

variable {n : ℕ}

theorem getD_scale (l : List ℝ) (p : ℕ) : (l.map (lam * ·)).getD p 0 = lam * l.getD p 0 := by
  rw [List.getD_eq_getElem?_getD, List.getD_eq_getElem?_getD, List.getElem?_map]
  cases l[p]? <;> simp

theorem respAt_scale (hl : 0 < lam) (times : List ℝ) (y : Fin n → Fin n → List ℝ) (dt : ℝ) : respAt (times.map (lam * ·)) y (lam * dt) = respAt times y dt := by
  unfold respAt
  congr 1
  funext i
  congr 1
  funext j
  have e : List.zip (0 :: times.map (lam * ·)) (0 :: y i j) = (List.zip (0 :: times) (0 :: y i j)).map (stretch lam 1) := by
    have : (0 : ℝ) :: times.map (lam * ·) = (0 :: times).map (lam * ·) := by simp
    rw [this, List.zip_map_left]
    congr 1
    funext p
    simp [stretch, Prod.map]
  rw [e, interp_scale hl]
  cases interp (List.zip (0 :: times) (0 :: y i j)) dt <;> simp

theorem stepData_scale (hl : 0 < lam) (tl : List ℝ) (y : Fin n → Fin n → List ℝ) (past : List (Fin n → ℝ)) (p : ℕ) : stepData (tl.map (lam * ·)) y past p = stepData tl y past p := by
  unfold stepData
  rw [diffs_scale, getD_scale, respAt_scale hl, ← List.map_take]
  simp only [reconstruct_scale hl]

variable {c : ℝ}

theorem ubwtStep_scale (hl : 0 < lam) (hc : 0 < c) (H : Fin n → ℝ) (tl : List ℝ) (y : Fin n → Fin n → List ℝ) (past : List (Fin n → ℝ)) (p : ℕ) :
    ubwtStep (fun i => c * H i) (tl.map (lam * ·)) y past p = ubwtStep H tl y past p := by
  unfold ubwtStep
  rw [stepData_scale hl]
  cases stepData tl y past p with
  | none => rfl
  | some x =>
    obtain ⟨h, T0⟩ := x
    dsimp only
    have := linsolve_rows (ubwtA H h) (Sum.elim (fun i => -T0 i) fun _ => ∑ i, H i) (Sum.elim (fun _ => 1) fun _ => c) (by rintro (i | i) <;> simp [hc.ne'])
    rw [← this]
    congr 2
    · ext (i | i) (j | j) <;> simp [ubwtA]
    · funext i
      rcases i with i | i <;> simp [Finset.mul_sum]

theorem ubwtLoop_scale (hl : 0 < lam) (hc : 0 < c) (H : Fin n → ℝ) (tl : List ℝ) (y : Fin n → Fin n → List ℝ) (p : ℕ) :
    ubwtLoop (fun i => c * H i) (tl.map (lam * ·)) y p = ubwtLoop H tl y p := by
  induction p with
  | zero => rfl
  | succ p ih => simp only [ubwtLoop, ih, ubwtStep_scale hl hc]

theorem ubwt_scale (hl : 0 < lam) (hc : 0 < c) (H : Fin n → ℝ) {resp resp' : List ℝ → Fin n → Fin n → List ℝ} (time : List ℝ) (thr : ℝ)
    (hr : resp' ((timeLong time thr).map (lam * ·)) = resp (timeLong time thr)) : ubwt (fun i => c * H i) resp' (time.map (lam * ·)) (lam * thr) = ubwt H resp time thr := by
  unfold ubwt
  dsimp only
  rw [timeLong_scale hl, hr, ubwtLoop_scale hl hc, List.length_map]
  simp only [linearize_scale hl, linearizeQ_scale hl]

theorem uhtr_scale (hl : 0 < lam) (hc : 0 < c) (H : Fin n → ℝ) {resp resp' : List ℝ → Fin n → Fin n → List ℝ} (time : List ℝ) (thr : ℝ)
    (hr : resp' ((timeLong time thr).map (lam * ·)) = resp (timeLong time thr)) : uhtr (fun i => c * H i) resp' (time.map (lam * ·)) (lam * thr) = uhtr H resp time thr := by
  unfold uhtr
  dsimp only
  rw [timeLong_scale hl, hr, List.length_map, linearize_scale hl]
  congr 2
  funext p
  unfold uhtrG
  have : ∀ x i, x * (c * H i) = c * (x * H i) := fun x i => by ring
  simp only [this, ← Finset.mul_sum]
  rw [mul_div_mul_left _ _ hc.ne']

/-- The same field with all lengths multiplied by `c` and all conductances per unit length by `κ`. -/
structure ScaledFlow (c κ : ℝ) (f f' : Flow n) : Prop where
  aIn : ∀ i, f'.aIn i = κ * c * f.aIn i
  aB : ∀ i j, f'.aB i j = κ * c * f.aB i j
  mcp : f'.mcp = κ * c * f.mcp
  R : f'.R = f.R / κ
  ks : f'.ks = κ * f.ks
  Hb : ∀ i, f'.Hb i = c * f.Hb i

variable {κ : ℝ} {f f' : Flow n}

theorem effective_scale (hc : 0 < c) (hκ : 0 < κ) (hf : ScaledFlow c κ f f') (L Tin : ℝ) : effective (c * L) f' Tin = effective L f Tin := by
  unfold effective
  dsimp only
  rw [hf.ks, hf.mcp, hf.R, show 2 * Real.pi * (κ * f.ks) * (c * L) = κ * c * (2 * Real.pi * f.ks * L) by ring, mul_div_mul_left _ _ (mul_pos hκ hc).ne']
  congr 1
  field_simp

theorem miftStep_scale (hl : 0 < lam) (hc : 0 < c) (hκ : 0 < κ) (hf : ScaledFlow c κ f f') (H : Fin n → ℝ) (tl : List ℝ) (y : Fin n → Fin n → List ℝ) (past : List (Fin n → ℝ)) (p : ℕ) :
    miftStep (fun i => c * H i) f' (tl.map (lam * ·)) y past p = miftStep H f tl y past p := by
  unfold miftStep
  rw [stepData_scale hl]
  cases stepData tl y past p with
  | none => rfl
  | some x =>
    obtain ⟨h, T0⟩ := x
    dsimp only
    have := linsolve_rows (miftA H f h) (Sum.elim (fun i => -T0 i) (Sum.elim (fun _ => 0) fun _ => ∑ i, H i)) (Sum.elim (fun _ => 1) (Sum.elim (fun _ => 1) fun _ => c))
      (by rintro (i | i | i) <;> simp [hc.ne'])
    have hd : ∀ a i, κ * c * a / (2 * Real.pi * (κ * f.ks) * (c * f.Hb i)) = a / (2 * Real.pi * f.ks * f.Hb i) := fun a i => by
      rw [show 2 * Real.pi * (κ * f.ks) * (c * f.Hb i) = κ * c * (2 * Real.pi * f.ks * f.Hb i) by ring, mul_div_mul_left _ _ (mul_pos hκ hc).ne']
    have e : linsolve (miftA (fun i => c * H i) f' h) (Sum.elim (fun i => -T0 i) (Sum.elim (fun _ => 0) fun _ => ∑ i, c * H i)) =
        linsolve (miftA H f h) (Sum.elim (fun i => -T0 i) (Sum.elim (fun _ => 0) fun _ => ∑ i, H i)) := by
      rw [← this]
      congr 1
      · ext (i | i | i) (j | j | j) <;> simp [miftA, hf.aIn, hf.aB, hf.ks, hf.Hb, hd]
      · funext i
        rcases i with i | i | i <;> simp [Finset.mul_sum]
    rw [e]
    simp only [← Finset.mul_sum, effective_scale hc hκ hf]

theorem miftLoop_scale (hl : 0 < lam) (hc : 0 < c) (hκ : 0 < κ) (hf : ScaledFlow c κ f f') (H : Fin n → ℝ) (tl : List ℝ) (y : Fin n → Fin n → List ℝ) (p : ℕ) :
    miftLoop (fun i => c * H i) f' (tl.map (lam * ·)) y p = miftLoop H f tl y p := by
  induction p with
  | zero => rfl
  | succ p ih => simp only [miftLoop, ih, miftStep_scale hl hc hκ hf]

theorem mift_scale (hl : 0 < lam) (hc : 0 < c) (hκ : 0 < κ) (hf : ScaledFlow c κ f f') (H : Fin n → ℝ) {resp resp' : List ℝ → Fin n → Fin n → List ℝ} (time : List ℝ) (thr : ℝ)
    (hr : resp' ((timeLong time thr).map (lam * ·)) = resp (timeLong time thr)) : mift (fun i => c * H i) f' resp' (time.map (lam * ·)) (lam * thr) = mift H f resp time thr := by
  unfold mift
  dsimp only
  rw [timeLong_scale hl, hr, miftLoop_scale hl hc hκ hf, List.length_map]
  simp only [linearize_scale hl, linearizeQ_scale hl]

end Verif.Sol
