import Verif.FLS.Exp1RelProps
import Verif.Gf.UniformProps

/-!
# Lemmas: response factors that are differences over the ends of source and receiver
-/

noncomputable section

namespace Verif.Gf

open Bore FLS Sol

/-- The alternating sum over the ends of a source, its mirror image and a receiver. -/
def endSum (Φ : ℝ → ℝ) (g : Pair) : ℝ :=
  Φ (g.D2 - g.D1 + g.H2) - Φ (g.D2 - g.D1) + Φ (g.D2 - g.D1 - g.H1) - Φ (g.D2 - g.D1 + g.H2 - g.H1)
    + (Φ (g.D2 + g.D1 + g.H2) - Φ (g.D2 + g.D1) + Φ (g.D2 + g.D1 + g.H1) - Φ (g.D2 + g.D1 + g.H2 + g.H1))

/-- A response factor that is an alternating sum of an even function of the vertical distance, divided by the length of the receiver. -/
structure LineLike (F : Pair → ℝ) (Φ : ℝ → ℝ → ℝ) : Prop where
  even : ∀ d q, Φ d (-q) = Φ d q
  value : ∀ g, F g = endSum (Φ g.dis) g / g.H2

variable {F : Pair → ℝ} {Φ : ℝ → ℝ → ℝ}

theorem LineLike.swap (h : LineLike F Φ) {g : Pair} (h1 : g.H1 ≠ 0) (h2 : g.H2 ≠ 0) : g.H2 * F g = g.H1 * F g.swap := by
  rw [h.value, h.value]
  have e : endSum (Φ g.swap.dis) g.swap = endSum (Φ g.dis) g := by
    unfold endSum Pair.swap
    dsimp only
    rw [← h.even g.dis (g.D1 - g.D2 + g.H1), ← h.even g.dis (g.D1 - g.D2), ← h.even g.dis (g.D1 - g.D2 - g.H2), ← h.even g.dis (g.D1 - g.D2 + g.H1 - g.H2),
      show -(g.D1 - g.D2 + g.H1) = g.D2 - g.D1 - g.H1 by ring, show -(g.D1 - g.D2) = g.D2 - g.D1 by ring, show -(g.D1 - g.D2 - g.H2) = g.D2 - g.D1 + g.H2 by ring,
      show -(g.D1 - g.D2 + g.H1 - g.H2) = g.D2 - g.D1 + g.H2 - g.H1 by ring, add_comm g.D1 g.D2, show g.D2 + g.D1 + g.H1 + g.H2 = g.D2 + g.D1 + g.H2 + g.H1 by ring]
    ring
  rw [e, show g.swap.H2 = g.H1 from rfl]
  field_simp

theorem endSum_source (φ : ℝ → ℝ) (g : Pair) (ls : List ℝ) (D : ℝ) : endSum φ (g.withSource (D, ls.sum)) = ((pieces D ls).map fun p => endSum φ (g.withSource p)).sum := by
  induction ls generalizing D with
  | nil => simp [pieces, endSum, Pair.withSource]
  | cons l ls ih =>
    simp only [pieces, List.map_cons, List.sum_cons]
    rw [← ih]
    unfold endSum Pair.withSource
    dsimp only
    rw [show g.D2 - (D + l) = g.D2 - D - l by ring, show g.D2 + (D + l) = g.D2 + D + l by ring, show g.D2 - D - (l + ls.sum) = g.D2 - D - l - ls.sum by ring,
      show g.D2 - D + g.H2 - (l + ls.sum) = g.D2 - D - l + g.H2 - ls.sum by ring, show g.D2 - D + g.H2 - l = g.D2 - D - l + g.H2 by ring,
      show g.D2 + D + (l + ls.sum) = g.D2 + D + l + ls.sum by ring, show g.D2 + D + g.H2 + (l + ls.sum) = g.D2 + D + l + g.H2 + ls.sum by ring,
      show g.D2 + D + g.H2 + l = g.D2 + D + l + g.H2 by ring]
    ring

theorem endSum_receiver (φ : ℝ → ℝ) (g : Pair) (ls : List ℝ) (D : ℝ) : endSum φ (g.withReceiver (D, ls.sum)) = ((pieces D ls).map fun p => endSum φ (g.withReceiver p)).sum := by
  induction ls generalizing D with
  | nil => simp [pieces, endSum, Pair.withReceiver]
  | cons l ls ih =>
    simp only [pieces, List.map_cons, List.sum_cons]
    rw [← ih]
    unfold endSum Pair.withReceiver
    dsimp only
    rw [show D + l - g.D1 = D - g.D1 + l by ring, show D + l + g.D1 = D + g.D1 + l by ring, show D - g.D1 + (l + ls.sum) = D - g.D1 + l + ls.sum by ring,
      show D + g.D1 + (l + ls.sum) = D + g.D1 + l + ls.sum by ring]
    ring

/-- The responses to the segments of a borehole add up to the response to the borehole. -/
theorem LineLike.sources (hL : LineLike F Φ) {b c : Borehole} (ht : b.tilt = 0) {r : List ℝ} (hs : r.sum = 1) :
    ((b.segments r).map fun s => F (pairOf s c)).sum = F (pairOf b c) := by
  have e := endSum_source (Φ (pairOf b c).dis) (pairOf b c) (r.map (· * b.H)) b.D
  rw [ratios_sum b hs, show (pairOf b c).withSource (b.D, b.H) = pairOf b c from rfl] at e
  have := congrArg (List.map F) (source_pieces ht c 0 r)
  rw [List.map_map, List.map_map, zero_mul, add_zero] at this
  rw [segments_eq, show (fun s => F (pairOf s c)) = F ∘ fun s => pairOf s c from rfl, this, hL.value (pairOf b c), e, div_eq_mul_inv, ← List.sum_map_mul_right]
  congr 1
  exact List.map_congr_left fun p _ => (hL.value _).trans (div_eq_mul_inv _ _)

/-- The responses of the segments of a borehole, weighted by length, add up to that of the borehole. -/
theorem LineLike.receivers (hL : LineLike F Φ) {b c : Borehole} (ht : c.tilt = 0) (hc : 0 < c.H) {r : List ℝ} (hp : ∀ ρ ∈ r, 0 < ρ) (hs : r.sum = 1) :
    ((c.segments r).map fun s => s.H * F (pairOf b s)).sum = c.H * F (pairOf b c) := by
  have e := endSum_receiver (Φ (pairOf b c).dis) (pairOf b c) (r.map (· * c.H)) c.D
  rw [ratios_sum c hs, show (pairOf b c).withReceiver (c.D, c.H) = pairOf b c from rfl] at e
  have := congrArg (List.map fun p : ℝ × Pair => p.1 * F p.2) (receiver_pieces ht b 0 r)
  rw [List.map_map, List.map_map, zero_mul, add_zero] at this
  rw [segments_eq, show (fun s : Borehole => s.H * F (pairOf b s)) = (fun p : ℝ × Pair => p.1 * F p.2) ∘ fun s => (s.H, pairOf b s) from rfl, this, hL.value (pairOf b c), e,
    show (pairOf b c).H2 = c.H from rfl, mul_div_cancel₀ _ hc.ne']
  congr 1
  refine List.map_congr_left fun p hm => ?_
  have hpos : ∀ (ls : List ℝ) (D : ℝ), (∀ l ∈ ls, 0 < l) → ∀ p ∈ pieces D ls, 0 < p.2 := by
    intro ls
    induction ls with
    | nil => intro D _ p hp; simp [pieces] at hp
    | cons l ls ih =>
      intro D h p hp
      rcases List.mem_cons.mp hp with rfl | hp
      · exact h l (by simp)
      · exact ih (D + l) (fun x hx => h x (by simp [hx])) p hp
  have h2 : 0 < p.2 := hpos _ _ (fun l hl => by
    obtain ⟨ρ, hρ, rfl⟩ := List.mem_map.mp hl
    have := hp ρ hρ
    positivity) p hm
  simp only [Function.comp]
  rw [hL.value, show ((pairOf b c).withReceiver p).H2 = p.2 from rfl, show ((pairOf b c).withReceiver p).dis = (pairOf b c).dis from rfl, mul_div_cancel₀ _ h2.ne']

/-- The total response of the segments is the total response of the boreholes. -/
theorem LineLike.total (hL : LineLike F Φ) {rb : ℝ} {bs : List Borehole} {ns : List ℕ} {rs : List (List ℝ)} (hU : Upright rb bs) (h : Splits bs ns rs) :
    totalResponse (fun s r => F (pairOf s r)) (segmentList bs ns rs) = totalResponse (fun s r => F (pairOf s r)) bs := by
  unfold totalResponse
  refine sum_segmentList h _ _ fun c hc r hp hs => ?_
  have hsrc : ∀ s : Borehole, (((segmentList bs ns rs).map fun b => F (pairOf b s)).sum) = (bs.map fun b => F (pairOf b s)).sum :=
    fun s => sum_segmentList h _ _ fun b hb r' _ hs' => hL.sources (hU.tilt b hb) hs'
  rw [List.map_congr_left fun s _ => by rw [hsrc s]]
  have hmul : ∀ l : List Borehole, ((c.segments r).map fun s => s.H * (l.map fun b => F (pairOf b s)).sum).sum = c.H * (l.map fun b => F (pairOf b c)).sum := by
    intro l
    induction l with
    | nil => simp
    | cons b l ih =>
      simp only [List.map_cons, List.sum_cons, mul_add, List.sum_map_add]
      rw [ih, hL.receivers (hU.tilt c hc) (hU.H c hc) hp hs]
  exact hmul bs

theorem LineLike.symm (hL : LineLike F Φ) {b1 b2 : Borehole} (hr : b1.rb = b2.rb) (h1 : b1.H ≠ 0) (h2 : b2.H ≠ 0) : b2.H * F (pairOf b1 b2) = b1.H * F (pairOf b2 b1) := by
  have h := hL.swap (g := pairOf b1 b2) h1 h2
  have hd : (pairOf b1 b2).swap = pairOf b2 b1 := by
    have : b2.distance b1 = b1.distance b2 := by
      unfold Borehole.distance
      rw [hr]; congr 2; ring
    simp [pairOf, Pair.swap, this]
  rw [hd] at h
  exact h

/-- The response factors of the segments. -/
theorem LineLike.detailed (hL : LineLike F Φ) {K : Bool → Borehole → Borehole → ℝ} (hK : ∀ s r, K true s r = F (pairOf s r)) {rb : ℝ} {bs : List Borehole}
    {ns : List ℕ} {rs : List (List ℝ)} (hU : Upright rb bs) (h : Splits bs ns rs) : (Sol.detailed K bs ns rs).isSome ∧
    ∀ i j : Fin (segmentList bs ns rs).length, ((Sol.detailed K bs ns rs).getD fun _ _ => 0) i j = F (pairOf (segmentList bs ns rs)[j] (segmentList bs ns rs)[i]) := by
  obtain ⟨M, hM, he⟩ := detailed_entries K h.consistent h.ne
  have hall : ∀ k, (bs.drop k).all vertical = true := fun k => by
    rw [List.all_eq_true]
    intro b hb
    have : ¬ tilted b.tilt := by rw [hU.tilt b (List.mem_of_mem_drop hb), tilted, abs_zero]; norm_num
    simp [vertical, this]
  have hrad : ∀ k a s, IsSegment bs rs k a s → s.rb = rb := by
    rintro k a s ⟨b, r, hb, hr, hs⟩
    rw [segment_rb b r s (List.mem_of_getElem? hs)]
    exact hU.rb b (List.mem_of_getElem? hb)
  have hH := isSegment_H hU h
  refine ⟨by rw [hM]; rfl, fun i j => ?_⟩
  obtain ⟨k, a, sk, e1, hk, g1⟩ := positions_cover h.consistent i.isLt
  obtain ⟨l, b, sl, e2, hl, g2⟩ := positions_cover h.consistent j.isLt
  have v1 : (segmentList bs ns rs)[i] = sk := by
    have := List.getElem?_eq_getElem i.isLt
    rw [g1] at this
    exact (Option.some.inj this).symm
  have v2 : (segmentList bs ns rs)[j] = sl := by
    have := List.getElem?_eq_getElem j.isLt
    rw [g2] at this
    exact (Option.some.inj this).symm
  rw [v1, v2, hM, Option.getD_some, e1, e2]
  have e := he k a sk l b sl hk hl
  have h0 := hall 0
  rw [List.drop_zero] at h0
  rw [e, h0, hall k, hall l, hK, hK]
  split_ifs with h1 h2
  · rfl
  · rfl
  · have := hL.symm (b1 := sk) (b2 := sl) (by rw [hrad _ _ _ hk, hrad _ _ _ hl]) (hH _ _ _ hk) (hH _ _ _ hl)
    have hk0 := hH _ _ _ hk
    field_simp
    linarith

/-- The g-function with a uniform heat extraction rate for such response factors. -/
theorem uniform_lineLike {F : ℝ → Pair → ℝ} {Φ : ℝ → ℝ → ℝ → ℝ} (hL : ∀ t, LineLike (F t) (Φ t)) {K : ℝ → Bool → Borehole → Borehole → ℝ}
    (hK : ∀ t s r, K t true s r = F t (pairOf s r)) {rb : ℝ} {bs : List Borehole} {ns : List ℕ} {rs : List (List ℝ)} (hU : Upright rb bs) (h : Splits bs ns rs) {time : List ℝ}
    (hs : time.Pairwise (· ≤ ·)) (thr : ℝ) :
    uniformDetailed K bs ns rs time thr = some (time.map fun t => if t ≤ thr then meanResponse (fun b c => F thr (pairOf b c)) bs * t / thr else meanResponse (fun b c => F t (pairOf b c)) bs) := by
  have hd := fun t => (hL t).detailed (hK t) hU h
  obtain ⟨segs, hsegs⟩ : ∃ segs, segs = segmentList bs ns rs := ⟨_, rfl⟩
  obtain ⟨G, hG⟩ : ∃ G : Fin segs.length → Fin segs.length → ℝ → ℝ, G = fun (i j : Fin segs.length) t => ((Sol.detailed (K t) bs ns rs).getD fun _ _ => 0) i j := ⟨_, rfl⟩
  have hval : ∀ i j t, G i j t = F t (pairOf segs[j] segs[i]) := by
    subst hsegs hG
    exact fun i j t => (hd t).2 i j
  have hmean : ∀ t, (∑ i : Fin segs.length, segs[i].H * ∑ j, G i j t) / (∑ i : Fin segs.length, segs[i].H) = meanResponse (fun b c => F t (pairOf b c)) bs := by
    intro t
    unfold meanResponse
    rw [← (hL t).total hU h, ← segmentList_H h, ← hsegs]
    unfold totalResponse
    have hin : ∀ i : Fin segs.length, ∑ j, G i j t = (segs.map fun b => F t (pairOf b segs[i])).sum := fun i => by
      rw [Finset.sum_congr rfl fun j _ => hval i j t]
      exact Fin.sum_univ_fun_getElem segs fun b => F t (pairOf b segs[i])
    rw [Finset.sum_congr rfl fun i _ => by rw [hin i]]
    congr 1
    · exact Fin.sum_univ_fun_getElem segs fun c => c.H * (segs.map fun b => F t (pairOf b c)).sum
    · exact Fin.sum_univ_fun_getElem segs Borehole.H
  have hu := uhtr_average (fun i : Fin segs.length => segs[i].H) (resp := fun tl i j => tl.map (G i j)) (F := G) (fun _ _ _ => rfl) hs thr
  have hsome : uniformDetailed K bs ns rs time thr = some (uhtr (fun i : Fin segs.length => segs[i].H) (fun tl i j => tl.map (G i j)) time thr) := by
    unfold uniformDetailed
    dsimp only
    rw [if_pos fun t _ => (hd t).1]
    subst hsegs hG
    rfl
  rw [hsome]
  congr 1
  refine List.ext_getElem? fun k => ?_
  rw [List.getElem?_map]
  rcases hk : time[k]? with _ | t
  · rw [List.getElem?_eq_none_iff] at hk
    rw [List.getElem?_eq_none_iff.mpr (by rw [hu.1]; exact hk)]; rfl
  · rw [hu.2 k t hk, hmean, hmean]; rfl

end Verif.Gf
