import Verif.Gf.UniformProps
import Verif.FLS.LimitProps
import Verif.FLS.SettleProps

/-!
# Property C133: g-functions of fields at short and at long times

At short times the boreholes of a field do not feel each other: the g-function for a uniform heat
extraction rate is the mean of those of the single boreholes, up to a term that is exponentially
small in `B^2 / (4 alpha t)` for the smallest spacing `B`.  At long times it approaches its
steady-state value like `t^(-3/2)`.
-/

noncomputable section

namespace Verif.Gf

open Bore FLS Sol

/-- Specification: the mean over the length of all boreholes of the responses of the boreholes, each alone in the ground. -/
def aloneMean (alpha : ℝ) (bs : List Borehole) (t : ℝ) : ℝ := (bs.map fun b => b.H * fls t alpha (pairOf b b) true true).sum / (bs.map Borehole.H).sum

/-- Specification: any two boreholes of the list are at least `B` apart. -/
def Apart (B : ℝ) (bs : List Borehole) : Prop := bs.Pairwise fun b c => B ^ 2 ≤ (b.x - c.x) ^ 2 + (b.y - c.y) ^ 2

/-- The response at a distance is below that of an infinite line source. -/
theorem fls_le_E1 {alpha t : ℝ} (ha : 0 < alpha) (ht : 0 < t) {g : Pair} (hg : g.Ok) (h1 : 0 < g.H1) {B : ℝ} (hB : 0 < B) (hd : B ≤ g.dis) :
    fls t alpha g true true ≤ E1 (B ^ 2 / (4 * alpha * t)) / 2 := by
  have hl := lower_pos ha ht
  have h2 := hg.H2
  have hdis := hg.dis
  have e0 : B ^ 2 * lower alpha t ^ 2 = B ^ 2 / (4 * alpha * t) := by rw [lower_sq ha ht]; field_simp
  have hi := gauss_div_integrableOn (k := B ^ 2) (by positivity) hl
  have hm : quad (integrand g true true) (lower alpha t) none ≤ ∫ s in Set.Ioi (lower alpha t), 2 * g.H2 * (Real.exp (-B ^ 2 * s ^ 2) / s) := by
    refine MeasureTheory.setIntegral_mono_on (integrand_integrableOn hg true true hl.le) (hi.const_mul _) measurableSet_Ioi fun s hs => ?_
    have h0 : 0 < s := hl.trans hs
    have hk := kernel_bound hg h1 true h0
    have e : integrand g true true s = Real.exp (-g.dis ^ 2 * s ^ 2) * integrand (g.at 0) true true s := integrand_at g true true g.dis s
    rw [e]
    have hexp : Real.exp (-g.dis ^ 2 * s ^ 2) ≤ Real.exp (-B ^ 2 * s ^ 2) := by
      refine Real.exp_le_exp.mpr ?_
      have := mul_le_mul_of_nonneg_right (pow_le_pow_left₀ hB.le hd 2) (sq_nonneg s)
      linarith
    calc Real.exp (-g.dis ^ 2 * s ^ 2) * integrand (g.at 0) true true s ≤ Real.exp (-g.dis ^ 2 * s ^ 2) * (2 * g.H2 / s) := mul_le_mul_of_nonneg_left hk (Real.exp_pos _).le
      _ ≤ Real.exp (-B ^ 2 * s ^ 2) * (2 * g.H2 / s) := mul_le_mul_of_nonneg_right hexp (by positivity)
      _ = _ := by ring
  rw [MeasureTheory.integral_const_mul, gauss_div_integral (by positivity) hl, e0] at hm
  have := mul_le_mul_of_nonneg_left hm (show 0 ≤ 0.5 / g.H2 by positivity)
  refine le_trans this (le_of_eq ?_)
  field_simp
  ring

theorem sum_apart {f : Borehole → Borehole → ℝ} {P : Borehole → Borehole → Prop} {E : ℝ} {bs : List Borehole} (hp : bs.Pairwise P)
    (h : ∀ b ∈ bs, ∀ c ∈ bs, P b c → f b c ≤ E ∧ f c b ≤ E) {c : Borehole} (hc : c ∈ bs) : (bs.map fun b => f b c).sum ≤ f c c + (bs.length - 1) * E := by
  induction bs with
  | nil => cases hc
  | cons x xs ih =>
    rw [List.pairwise_cons] at hp
    simp only [List.map_cons, List.sum_cons, List.length_cons, Nat.cast_add, Nat.cast_one]
    rcases List.mem_cons.mp hc with rfl | hc'
    · have := list_sum_le (l := xs) (f := fun b => f b c) (g := fun _ => E) fun b hb => (h c hc b (List.mem_cons_of_mem _ hb) (hp.1 b hb)).2
      rw [List.map_const', List.sum_replicate, nsmul_eq_mul] at this
      linarith
    · have a := ih hp.2 (fun b hb c hc => h b (List.mem_cons_of_mem _ hb) c (List.mem_cons_of_mem _ hc)) hc'
      have b := (h x List.mem_cons_self c hc (hp.1 c hc')).1
      linarith

theorem le_sum_self {f : Borehole → Borehole → ℝ} {bs : List Borehole} (h : ∀ b ∈ bs, ∀ c ∈ bs, 0 ≤ f b c) {c : Borehole} (hc : c ∈ bs) : f c c ≤ (bs.map fun b => f b c).sum := by
  refine List.single_le_sum (fun x hx => ?_) _ (List.mem_map_of_mem (f := fun b => f b c) hc)
  obtain ⟨b, hb, rfl⟩ := List.mem_map.mp hx
  exact h b hb c hc

/-- **C133** (short times). -/
theorem field_early {alpha : ℝ} (ha : 0 < alpha) {rb : ℝ} {bs : List Borehole} (hU : Upright rb bs) {B : ℝ} (hB : 0 < B) (hap : Apart B bs) {t : ℝ} (ht : 0 < t) :
    aloneMean alpha bs t ≤ fieldResponse alpha bs t ∧
      fieldResponse alpha bs t ≤ aloneMean alpha bs t + (bs.length - 1) * (E1 (B ^ 2 / (4 * alpha * t)) / 2) ∧
      E1 (B ^ 2 / (4 * alpha * t)) / 2 ≤ 2 * alpha * t / B ^ 2 * Real.exp (-(B ^ 2 / (4 * alpha * t))) := by
  have hT := hU.total
  have hp := fun b hb c hc => ((positive_increasing ha (hU.ok (b := b) (c := c) hb hc) (hU.H b hb) ht (show t < t + 1 by linarith)).2.2.2 (hU.D b hb) (hU.D c hc)).1
  have dist : ∀ b c : Borehole, B ^ 2 ≤ (b.x - c.x) ^ 2 + (b.y - c.y) ^ 2 → B ≤ (pairOf b c).dis := fun b c h => by
    refine le_trans ?_ (le_max_right _ _)
    exact Real.le_sqrt_of_sq_le h
  refine ⟨?_, ?_, ?_⟩
  · refine div_le_div_of_nonneg_right (list_sum_le fun c hc => ?_) hT.le
    exact mul_le_mul_of_nonneg_left (le_sum_self (f := fun b c => fls t alpha (pairOf b c) true true) (fun b hb c hc => (hp b hb c hc).le) hc) (hU.H c hc).le
  · have h : totalResponse (fun b c => fls t alpha (pairOf b c) true true) bs
        ≤ (bs.map fun c => c.H * fls t alpha (pairOf c c) true true + c.H * ((bs.length - 1) * (E1 (B ^ 2 / (4 * alpha * t)) / 2))).sum := by
      refine list_sum_le fun c hc => ?_
      rw [← mul_add]
      refine mul_le_mul_of_nonneg_left ?_ (hU.H c hc).le
      refine sum_apart (f := fun b c => fls t alpha (pairOf b c) true true) hap (fun b hb c hc hbc => ⟨?_, ?_⟩) hc
      · exact fls_le_E1 ha ht (hU.ok hb hc) (hU.H b hb) hB (dist b c hbc)
      · refine fls_le_E1 ha ht (hU.ok hc hb) (hU.H c hc) hB (dist c b ?_)
        linarith [show (c.x - b.x) ^ 2 + (c.y - b.y) ^ 2 = (b.x - c.x) ^ 2 + (b.y - c.y) ^ 2 by ring]
    rw [List.sum_map_add, List.sum_map_mul_right] at h
    unfold fieldResponse meanResponse aloneMean
    rw [div_add' _ _ _ hT.ne']
    refine div_le_div_of_nonneg_right ?_ hT.le
    linarith
  · have := E1_le (show 0 < B ^ 2 / (4 * alpha * t) by positivity)
    refine (div_le_div_of_nonneg_right this (by norm_num)).trans (le_of_eq ?_)
    field_simp
    norm_num

/-- **C133** (long times). -/
theorem field_late {alpha : ℝ} (ha : 0 < alpha) {rb : ℝ} {bs : List Borehole} (hU : Upright rb bs) {t : ℝ} (ht : 0 < t) :
    0 < fieldSteady bs - fieldResponse alpha bs t ∧
      fieldSteady bs - fieldResponse alpha bs t
        ≤ (bs.map fun b => b.H * (b.H + 2 * b.D)).sum ^ 2 / (bs.map Borehole.H).sum / (24 * √Real.pi * (alpha * t * √(alpha * t))) := by
  have hT := hU.total
  refine ⟨sub_pos.mpr (field_increasing ha hU ht (lt_add_one t)).2.2.1, ?_⟩
  obtain ⟨w, hw⟩ : ∃ w, w = 24 * √Real.pi * (alpha * t * √(alpha * t)) := ⟨_, rfl⟩
  have h : totalResponse (fun b c => steady (pairOf b c) true true) bs
      ≤ (bs.map fun c => c.H * (bs.map fun b => fls t alpha (pairOf b c) true true).sum + c.H * (c.H + 2 * c.D) * ((bs.map fun b => b.H * (b.H + 2 * b.D)).sum / w)).sum := by
    refine list_sum_le fun c hc => ?_
    rw [mul_assoc, ← mul_add]
    refine mul_le_mul_of_nonneg_left ?_ (hU.H c hc).le
    have : (bs.map fun b => steady (pairOf b c) true true).sum
        ≤ (bs.map fun b => fls t alpha (pairOf b c) true true + b.H * (b.H + 2 * b.D) * ((c.H + 2 * c.D) / w)).sum := list_sum_le fun b hb => by
      have := (settles ha ht b c (by rw [hU.rb b hb]; exact hU.rb_pos) (hU.H b hb) (hU.H c hc) (hU.D b hb) (hU.D c hc)).2
      rw [← hw, mul_div_assoc] at this
      linarith
    rw [List.sum_map_add, List.sum_map_mul_right] at this
    refine this.trans (le_of_eq ?_)
    ring
  rw [List.sum_map_add, List.sum_map_mul_right] at h
  rw [← hw]
  unfold fieldSteady fieldResponse meanResponse
  rw [← sub_div, div_div, mul_comm _ w, ← div_div]
  refine div_le_div_of_nonneg_right ?_ hT.le
  have e : totalResponse (fun b c => fls t alpha (pairOf b c) true true) bs = (bs.map fun c => c.H * (bs.map fun b => fls t alpha (pairOf b c) true true).sum).sum := rfl
  rw [e]
  have e2 : (bs.map fun b => b.H * (b.H + 2 * b.D)).sum ^ 2 / w = (bs.map fun b => b.H * (b.H + 2 * b.D)).sum * ((bs.map fun b => b.H * (b.H + 2 * b.D)).sum / w) := by ring
  rw [e2]
  linarith

/-- **C133** (returned values).  The values of the g-function after the threshold for linearization. -/
theorem uniform_limits {alpha : ℝ} (ha : 0 < alpha) {K : ℝ → Bool → Borehole → Borehole → ℝ} (hK : ∀ t s r, K t true s r = fls t alpha (pairOf s r) true true) {rb : ℝ} {bs : List Borehole}
    {ns : List ℕ} {rs : List (List ℝ)} (hU : Upright rb bs) (h : Splits bs ns rs) {B : ℝ} (hB : 0 < B) (hap : Apart B bs) {time : List ℝ} (hpos : ∀ t ∈ time, 0 < t)
    (hs : time.Pairwise (· ≤ ·)) (thr : ℝ) : ∃ g, uniformDetailed K bs ns rs time thr = some g ∧ g.length = time.length ∧ ∀ (k : ℕ) (t : ℝ), time[k]? = some t → thr < t → ∃ v, g[k]? = some v ∧
      aloneMean alpha bs t ≤ v ∧ v ≤ aloneMean alpha bs t + (bs.length - 1) * (2 * alpha * t / B ^ 2 * Real.exp (-(B ^ 2 / (4 * alpha * t)))) ∧
      v < fieldSteady bs ∧ fieldSteady bs - (bs.map fun b => b.H * (b.H + 2 * b.D)).sum ^ 2 / (bs.map Borehole.H).sum / (24 * √Real.pi * (alpha * t * √(alpha * t))) ≤ v := by
  obtain ⟨g, hg, hlen, hv⟩ := uniform_field hK hU h hs thr
  refine ⟨g, hg, hlen, fun k t htk hthr => ⟨fieldResponse alpha bs t, ?_, ?_⟩⟩
  · rw [hv k t htk, if_neg (not_le.mpr hthr)]
  · have ht := hpos t (List.mem_of_getElem? htk)
    obtain ⟨a1, a2, a3⟩ := field_early ha hU hB hap ht
    obtain ⟨b1, b2⟩ := field_late ha hU ht
    have hN : (0 : ℝ) ≤ bs.length - 1 := by
      have : 1 ≤ bs.length := List.length_pos_iff.mpr hU.ne
      have : (1 : ℝ) ≤ bs.length := by exact_mod_cast this
      linarith
    exact ⟨a1, a2.trans (add_le_add le_rfl (mul_le_mul_of_nonneg_left a3 hN)), by linarith, by linarith⟩

theorem fieldB_apart : Apart 5 fieldB := by
  simp [Apart, fieldB]

theorem fieldB_splits : Splits fieldB [2, 1] [[1 / 4, 3 / 4], [1]] := by
  refine ⟨⟨?_, ?_⟩, ?_, ?_⟩ <;> (simp [fieldB]; try norm_num)

example := field_early (alpha := 1 / 10 ^ 6) (by norm_num) fieldB_upright (by norm_num : (0 : ℝ) < 5) fieldB_apart (t := 10 ^ 6) (by norm_num)

example := field_late (alpha := 1 / 10 ^ 6) (by norm_num) fieldB_upright (t := 10 ^ 11) (by norm_num)

/-- Two boreholes 5 m apart, after ten days and after three thousand years. -/
example := uniform_limits (alpha := 1 / 10 ^ 6) (by norm_num) (K := lineKernel) (fun _ _ _ => rfl) fieldB_upright fieldB_splits (by norm_num : (0 : ℝ) < 5) fieldB_apart
  (time := [10 ^ 6, 10 ^ 11]) (by simp) (by simp; norm_num) (10 ^ 4)

end Verif.Gf
