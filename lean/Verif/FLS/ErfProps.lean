import Verif.FLS.ErfTableA
import Verif.FLS.ErfTableB
import Verif.FLS.ErfTableC
import Verif.FLS.InclApproxProps

/-!
# Property C89 with explicit numbers: how far the sum of Gaussians of the code is from the error function
-/

noncomputable section

namespace Verif.FLS

open Real MeasureTheory Set

/-- Bounds of the distance of the sum of Gaussians and the error function, for the number of terms `N`. -/
def erfTol : List ℚ :=
  [0.12, 0.03, 0.01, 0.004, 0.002, 0.001, 5e-4, 3e-4, 1.5e-4, 1e-4, 6e-5, 4e-5, 2.5e-5, 2e-5, 1e-5, 1e-5, 1e-5, 1e-5, 1e-5, 1e-5, 1e-5, 1e-5, 1e-5, 1e-5, 1e-5]

namespace ErfCheck

/-- The coefficients of the checks. -/
def rows : List (List (ℕ × ℕ)) := [r0, r1, r2, r3, r4, r5, r6, r7, r8, r9, r10, r11, r12, r13, r14, r15, r16, r17, r18, r19, r20, r21, r22, r23, r24]

/-- The coefficients of the checks are those of the code. -/
theorem rows_eq : aErf = rows.map (fun r => 1 :: r.map fun c => -((c.1 : ℚ) / 10 ^ 20)) ∧
    bErf = rows.map (fun r => 0 :: r.map fun c => (c.2 : ℚ) / 10 ^ 20) := by
  constructor <;> decide +kernel

theorem gaussSum_row (r : List (ℕ × ℕ)) (x : ℝ) :
    gaussSum (List.zipWith (fun (x y : ℚ) => ((x : ℝ), (y : ℝ))) (1 :: r.map fun c => -((c.1 : ℚ) / 10 ^ 20)) (0 :: r.map fun c => (c.2 : ℚ) / 10 ^ 20)) x
      = 1 - gR r x := by
  have hT : (T : ℝ) = 10 ^ 20 := by unfold T; norm_num
  have h : ∀ r : List (ℕ × ℕ), gaussSum (List.zipWith (fun (x y : ℚ) => ((x : ℝ), (y : ℝ))) (r.map fun c => -((c.1 : ℚ) / 10 ^ 20))
      (r.map fun c => (c.2 : ℚ) / 10 ^ 20)) x = -gR r x := by
    intro r
    induction r with
    | nil => simp [gaussSum, gR]
    | cons c r ih =>
      simp only [List.map_cons, List.zipWith_cons_cons]
      unfold gaussSum gR at ih ⊢
      simp only [List.map_cons, List.sum_cons] at ih ⊢
      rw [ih]
      unfold ca cb
      rw [hT]
      push_cast
      rw [neg_mul, neg_mul]
      ring
  have e : ∀ l, gaussSum ((1, 0) :: l) x = 1 + gaussSum l x := fun l => by simp [gaussSum]
  rw [List.zipWith_cons_cons]
  push_cast
  rw [e, h]
  ring

theorem row_bound {N : ℕ} (hN : N < 25) : ∃ r e, rows[N]? = some r ∧ erfTol[N]? = some e ∧ ∀ t : ℝ, 0 ≤ t → |1 - gR r t - erf t| ≤ e := by
  have key : ∀ {r : List (ℕ × ℕ)} {eps : ℕ} {m : List (ℕ × ℕ)} (e : ℚ), smallOk r = true ∧ check r eps m = true → (eps : ℚ) / 1152921504606846976 ≤ e →
      ∀ t : ℝ, 0 ≤ t → |1 - gR r t - erf t| ≤ e := by
    intro r eps m e h he t ht
    refine (check_sound h.1 h.2 ht).trans ?_
    have : ((((eps : ℚ) / 1152921504606846976 : ℚ)) : ℝ) ≤ (e : ℝ) := by exact_mod_cast he
    unfold sc
    push_cast at this ⊢
    exact this
  interval_cases N
  · exact ⟨r0, _, rfl, rfl, key _ check0 (by norm_num)⟩
  · exact ⟨r1, _, rfl, rfl, key _ check1 (by norm_num)⟩
  · exact ⟨r2, _, rfl, rfl, key _ check2 (by norm_num)⟩
  · exact ⟨r3, _, rfl, rfl, key _ check3 (by norm_num)⟩
  · exact ⟨r4, _, rfl, rfl, key _ check4 (by norm_num)⟩
  · exact ⟨r5, _, rfl, rfl, key _ check5 (by norm_num)⟩
  · exact ⟨r6, _, rfl, rfl, key _ check6 (by norm_num)⟩
  · exact ⟨r7, _, rfl, rfl, key _ check7 (by norm_num)⟩
  · exact ⟨r8, _, rfl, rfl, key _ check8 (by norm_num)⟩
  · exact ⟨r9, _, rfl, rfl, key _ check9 (by norm_num)⟩
  · exact ⟨r10, _, rfl, rfl, key _ check10 (by norm_num)⟩
  · exact ⟨r11, _, rfl, rfl, key _ check11 (by norm_num)⟩
  · exact ⟨r12, _, rfl, rfl, key _ check12 (by norm_num)⟩
  · exact ⟨r13, _, rfl, rfl, key _ check13 (by norm_num)⟩
  · exact ⟨r14, _, rfl, rfl, key _ check14 (by norm_num)⟩
  · exact ⟨r15, _, rfl, rfl, key _ check15 (by norm_num)⟩
  · exact ⟨r16, _, rfl, rfl, key _ check16 (by norm_num)⟩
  · exact ⟨r17, _, rfl, rfl, key _ check17 (by norm_num)⟩
  · exact ⟨r18, _, rfl, rfl, key _ check18 (by norm_num)⟩
  · exact ⟨r19, _, rfl, rfl, key _ check19 (by norm_num)⟩
  · exact ⟨r20, _, rfl, rfl, key _ check20 (by norm_num)⟩
  · exact ⟨r21, _, rfl, rfl, key _ check21 (by norm_num)⟩
  · exact ⟨r22, _, rfl, rfl, key _ check22 (by norm_num)⟩
  · exact ⟨r23, _, rfl, rfl, key _ check23 (by norm_num)⟩
  · exact ⟨r24, _, rfl, rfl, key _ check24 (by norm_num)⟩

end ErfCheck

/-- **C89** (the error function): with `N` terms the sum of Gaussians of the code differs from the error function by at most the tabulated bound, for all positive
numbers; 6e-5 for the default of 10 terms. -/
theorem erf_error {N : ℤ} (h0 : 0 ≤ N) (h1 : N ≤ 24) : ∃ ab e, erfCoeffs N = some ab ∧ erfTol[N.toNat]? = some e ∧
    ∀ x : ℝ, 0 ≤ x → |gaussSum ab x - erf x| ≤ e := by
  obtain ⟨r, e, hr, he, hb⟩ := ErfCheck.row_bound (N := N.toNat) (by omega)
  have ha : pyGet aErf N = some (1 :: r.map fun c => -((c.1 : ℚ) / 10 ^ 20)) := by
    unfold pyGet
    rw [if_pos h0, ErfCheck.rows_eq.1, List.getElem?_map, hr]; rfl
  have hb' : pyGet bErf N = some (0 :: r.map fun c => (c.2 : ℚ) / 10 ^ 20) := by
    unfold pyGet
    rw [if_pos h0, ErfCheck.rows_eq.2, List.getElem?_map, hr]; rfl
  refine ⟨_, e, by unfold erfCoeffs; rw [ha, hb']; rfl, he, fun x hx => ?_⟩
  rw [ErfCheck.gaussSum_row]
  exact hb x hx

/-- **C89** (vertical boreholes, explicit): the approximation differs from the finite line source solution by at most the tabulated bound plus three times
the relative error of the exponential integral, times the infinite line source. -/
theorem approx_explicit {N : ℤ} (h0 : 0 ≤ N) (h1 : N ≤ 24) {t alpha : ℝ} (ht : 0 < alpha * t) {g : Pair} (hg : g.Ok) (rea img : Bool) :
    ∃ v e, approx t alpha g rea img N = some v ∧ erfTol[N.toNat]? = some e ∧
      ∀ δ : ℝ, (∀ x, 0 < x → |exp1 x - E1 x| ≤ δ * E1 x) → 0 ≤ δ →
        |v - fls t alpha g rea img| ≤ g.spans rea img / (4 * g.H2) * (e + 3 * δ) * E1 (g.dis ^ 2 / (4 * alpha * t)) := by
  obtain ⟨ab, v, hab, hv, hb⟩ := approx_close h0 h1 ht hg rea img
  obtain ⟨ab', e, hab', he, hb'⟩ := erf_error h0 h1
  rw [hab] at hab'
  cases hab'
  exact ⟨v, e, hv, he, fun δ hδ hd => hb e δ (fun x hx => hb' x hx.le) hδ hd⟩

namespace Incl

open Bore

/-- **C92** (inclined boreholes, explicit). -/
theorem approx_explicit_inclined {N : ℤ} (h0 : 0 ≤ N) (h1 : N ≤ 24) {t alpha : ℝ} (ht : 0 < alpha * t) {b1 b2 : Borehole} {nodes : List (ℝ × ℝ)}
    (h : Clear b1 b2 nodes) (rea img : Bool) :
    ∃ ab v e, erfCoeffs N = some ab ∧ approx t alpha b1 b2 nodes rea img N = some v ∧ erfTol[N.toNat]? = some e ∧
      ∀ δ : ℝ, (∀ x, 0 < x → |exp1 x - E1 x| ≤ δ * E1 x) → 0 ≤ δ →
        |v - fls t alpha b1 b2 nodes rea img|
          ≤ sources rea img * (b1.H / (2 * b2.H)) * (nodes.map fun n => |n.2|).sum * (e + δ * (ab.map fun c => |c.1|).sum) * E1 (b1.rb ^ 2 / (4 * alpha * t)) := by
  obtain ⟨ab, v, hab, hv, hb⟩ := approx_close_inclined h0 h1 ht h rea img
  obtain ⟨ab', e, hab', he, hb'⟩ := erf_error h0 h1
  rw [hab] at hab'
  cases hab'
  exact ⟨ab, v, e, hab, hv, he, fun δ hδ hd => hb e δ (fun x hx => hb' x hx.le) hδ hd⟩

end Incl

/-- The default of 10 terms. -/
example : ∃ ab, erfCoeffs 10 = some ab ∧ ∀ x : ℝ, 0 ≤ x → |gaussSum ab x - erf x| ≤ 6e-5 := by
  obtain ⟨ab, e, h, he, hb⟩ := erf_error (N := 10) (by norm_num) (by norm_num)
  have : e = 6e-5 := by
    have h2 : erfTol[(10 : ℤ).toNat]? = some 6e-5 := rfl
    rw [h2] at he
    exact (Option.some.inj he).symm
  refine ⟨ab, h, fun x hx => ?_⟩
  have := hb x hx
  rw [‹e = 6e-5›] at this
  push_cast at this
  exact this

/-- The hypotheses of `approx_explicit` can be met, with the relative error of `exp1_rel`. -/
example {t alpha : ℝ} (ht : 0 < alpha * t) {g : Pair} (hg : g.Ok) : ∃ (v : ℝ) (e : ℚ), approx t alpha g true true 10 = some v ∧ erfTol[10]? = some e ∧
    |v - fls t alpha g true true| ≤ g.spans true true / (4 * g.H2) * (e + 3 * 3) * E1 (g.dis ^ 2 / (4 * alpha * t)) := by
  obtain ⟨v, e, h1, h2, h3⟩ := approx_explicit (N := 10) (by norm_num) (by norm_num) ht hg true true
  exact ⟨v, e, h1, h2, h3 3 (fun x hx => exp1_rel hx) (by norm_num)⟩

end Verif.FLS
