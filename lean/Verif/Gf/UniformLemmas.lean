import Verif.FLS.EquivProps
import Verif.Gf.UniformModel
import Verif.Sol.DetProps
import Verif.Sol.SolveProps

/-!
# Lemmas: responses of segments add up to responses of boreholes
-/

noncomputable section

namespace Verif.Gf

open Bore FLS Sol

/-- A field of vertical boreholes of the same radius below ground. -/
structure Upright (rb : ℝ) (bs : List Borehole) : Prop where
  ne : bs ≠ []
  tilt : ∀ b ∈ bs, b.tilt = 0
  rb_pos : 0 < rb
  rb : ∀ b ∈ bs, b.rb = rb
  H : ∀ b ∈ bs, 0 < b.H
  D : ∀ b ∈ bs, 0 ≤ b.D

/-- A discretization: for every borehole, positive ratios that add up to one. -/
structure Splits (bs : List Borehole) (ns : List ℕ) (rs : List (List ℝ)) : Prop where
  consistent : Consistent bs ns rs
  pos : ∀ r ∈ rs, ∀ ρ ∈ r, 0 < ρ
  sum : ∀ r ∈ rs, r.sum = 1

theorem Splits.ne {bs : List Borehole} {ns : List ℕ} {rs : List (List ℝ)} (h : Splits bs ns rs) : ∀ r ∈ rs, r ≠ [] := by
  rintro r hr rfl
  have := h.sum [] hr
  simp at this

/-- The sum over all receivers of the length times the response to all sources. -/
def totalResponse (h : Borehole → Borehole → ℝ) (bs : List Borehole) : ℝ := (bs.map fun c => c.H * (bs.map fun b => h b c).sum).sum

/-- The mean over the length of all boreholes of the response to all boreholes. -/
def meanResponse (h : Borehole → Borehole → ℝ) (bs : List Borehole) : ℝ := totalResponse h bs / (bs.map Borehole.H).sum

theorem source_pieces {b : Borehole} (ht : b.tilt = 0) (c : Borehole) (a : ℝ) (r : List ℝ) :
    (segsFrom b a r).map (fun s => pairOf s c) = (pieces (b.D + a * b.H) (r.map (· * b.H))).map fun p => (pairOf b c).withSource p := by
  induction r generalizing a with
  | nil => rfl
  | cons ρ r ih =>
    simp only [segsFrom, List.map_cons, pieces]
    rw [ih, show b.D + (a + ρ) * b.H = b.D + a * b.H + ρ * b.H by ring]
    simp [pairOf, Pair.withSource, Borehole.segmentAt, Borehole.new, Borehole.distance, ht]

theorem receiver_pieces {c : Borehole} (ht : c.tilt = 0) (b : Borehole) (a : ℝ) (r : List ℝ) :
    (segsFrom c a r).map (fun s => (s.H, pairOf b s)) = (pieces (c.D + a * c.H) (r.map (· * c.H))).map fun p => (p.2, (pairOf b c).withReceiver p) := by
  induction r generalizing a with
  | nil => rfl
  | cons ρ r ih =>
    simp only [segsFrom, List.map_cons, pieces]
    rw [ih, show c.D + (a + ρ) * c.H = c.D + a * c.H + ρ * c.H by ring]
    simp [pairOf, Pair.withReceiver, Borehole.segmentAt, Borehole.new, Borehole.distance, ht]

theorem distance_pos {b : Borehole} (hr : 0 < b.rb) (c : Borehole) : 0 < b.distance c := lt_max_of_lt_left hr

theorem pairOf_ok {b c : Borehole} (hr : 0 < b.rb) (hb : 0 ≤ b.H) (hc : 0 < c.H) : (pairOf b c).Ok := ⟨distance_pos hr c, hb, hc⟩

theorem ratios_sum (b : Borehole) {r : List ℝ} (h : r.sum = 1) : (r.map (· * b.H)).sum = b.H := by
  rw [List.sum_map_mul_right]; simp [h]

/-- The responses to the segments of a borehole add up to the response to the borehole. -/
theorem response_sources (t alpha : ℝ) {b c : Borehole} (ht : b.tilt = 0) (hr : 0 < b.rb) (hb : 0 < b.H) (hc : 0 < c.H) {r : List ℝ} (hp : ∀ ρ ∈ r, 0 < ρ)
    (hs : r.sum = 1) (rea img : Bool) : ((b.segments r).map fun s => fls t alpha (pairOf s c) rea img).sum = fls t alpha (pairOf b c) rea img := by
  rw [source_segments t alpha (pairOf_ok hr hb.le hc) rea img (r.map (· * b.H)) (by
      intro l hl
      obtain ⟨ρ, hρ, rfl⟩ := List.mem_map.mp hl
      have := hp ρ hρ
      positivity) (ratios_sum b hs), segments_eq]
  have := congrArg (List.map fun p => fls t alpha p rea img) (source_pieces ht c 0 r)
  rw [List.map_map, List.map_map, zero_mul, add_zero] at this
  exact congrArg List.sum this

/-- The responses of the segments of a borehole, weighted by length, add up to that of the borehole. -/
theorem response_receivers (t alpha : ℝ) {b c : Borehole} (ht : c.tilt = 0) (hr : 0 < b.rb) (hb : 0 < b.H) (hc : 0 < c.H) {r : List ℝ} (hp : ∀ ρ ∈ r, 0 < ρ)
    (hs : r.sum = 1) (rea img : Bool) : ((c.segments r).map fun s => s.H * fls t alpha (pairOf b s) rea img).sum = c.H * fls t alpha (pairOf b c) rea img := by
  have key := receiver_segments t alpha (pairOf_ok hr hb.le hc) rea img (r.map (· * c.H)) (by
      intro l hl
      obtain ⟨ρ, hρ, rfl⟩ := List.mem_map.mp hl
      have := hp ρ hρ
      positivity) (ratios_sum c hs)
  rw [key, segments_eq]
  have := congrArg (List.map fun p : ℝ × Pair => p.1 * fls t alpha p.2 rea img) (receiver_pieces ht b 0 r)
  rw [List.map_map, List.map_map, zero_mul, add_zero] at this
  rw [show (pairOf b c).H2 = c.H from rfl, show (pairOf b c).D2 = c.D from rfl, mul_div_cancel₀ _ hc.ne']
  exact congrArg List.sum this

theorem sum_flatMap_map {α β : Type*} (l : List α) (f : α → List β) (g : β → ℝ) : ((l.flatMap f).map g).sum = (l.map fun x => ((f x).map g).sum).sum := by
  induction l with
  | nil => rfl
  | cons x l ih => simp [ih]

theorem zip_sum {bs : List Borehole} {ns : List ℕ} {rs : List (List ℝ)} (h : Consistent bs ns rs) (φ : Borehole → ℝ) :
    ((List.zip bs (List.zip ns rs)).map fun x => φ x.1).sum = (bs.map φ).sum := by
  have hl : bs.length ≤ (List.zip ns rs).length := by
    have h2 : rs.length = ns.length := by rw [← h.ratios]; simp
    rw [List.length_zip, h2, h.segs]; simp
  have e := congrArg (fun l : List Borehole => (l.map φ).sum) (List.map_fst_zip hl)
  simp only [List.map_map] at e
  exact e

/-- A sum over all segments is a sum over the boreholes of what their segments contribute. -/
theorem sum_segmentList {bs : List Borehole} {ns : List ℕ} {rs : List (List ℝ)} (h : Splits bs ns rs) (f φ : Borehole → ℝ)
    (hf : ∀ b ∈ bs, ∀ r, (∀ ρ ∈ r, 0 < ρ) → r.sum = 1 → ((b.segments r).map f).sum = φ b) : ((segmentList bs ns rs).map f).sum = (bs.map φ).sum := by
  unfold segmentList
  rw [sum_flatMap_map, ← zip_sum h.consistent]
  congr 1
  refine List.map_congr_left fun x hx => ?_
  obtain ⟨h1, h2⟩ := List.of_mem_zip (a := x.1) (b := x.2) hx
  obtain ⟨-, h3⟩ := List.of_mem_zip (a := x.2.1) (b := x.2.2) h2
  exact hf x.1 h1 x.2.2 (h.pos _ h3) (h.sum _ h3)

/-- The total response of the segments is the total response of the boreholes. -/
theorem totalResponse_segments (t alpha : ℝ) {rb : ℝ} {bs : List Borehole} {ns : List ℕ} {rs : List (List ℝ)} (hU : Upright rb bs) (h : Splits bs ns rs) (rea img : Bool) :
    totalResponse (fun s r => fls t alpha (pairOf s r) rea img) (segmentList bs ns rs) = totalResponse (fun s r => fls t alpha (pairOf s r) rea img) bs := by
  unfold totalResponse
  refine sum_segmentList h _ _ fun c hc r hp hs => ?_
  have hsrc : ∀ s ∈ c.segments r, (((segmentList bs ns rs).map fun b => fls t alpha (pairOf b s) rea img).sum) = (bs.map fun b => fls t alpha (pairOf b s) rea img).sum := by
    intro s hsm
    have hsH : 0 < s.H := by
      have hm : s.H ∈ (c.segments r).map Borehole.H := List.mem_map_of_mem hsm
      rw [segments_eq, segsFrom_map_H] at hm
      obtain ⟨ρ, hρ, e⟩ := List.mem_map.mp hm
      have := hp ρ hρ
      have := hU.H c hc
      rw [← e]; positivity
    refine sum_segmentList h _ _ fun b hb r' hp' hs' => ?_
    exact response_sources t alpha (hU.tilt b hb) (by rw [hU.rb b hb]; exact hU.rb_pos) (hU.H b hb) hsH hp' hs' rea img
  rw [List.map_congr_left fun s hs => by rw [hsrc s hs]]
  have hmul : ∀ l : List Borehole, (∀ b ∈ l, b ∈ bs) → ((c.segments r).map fun s => s.H * (l.map fun b => fls t alpha (pairOf b s) rea img).sum).sum
      = c.H * (l.map fun b => fls t alpha (pairOf b c) rea img).sum := by
    intro l
    induction l with
    | nil => intro _; simp
    | cons b l ih =>
      intro hl
      simp only [List.map_cons, List.sum_cons, mul_add, List.sum_map_add]
      rw [ih fun b hb => hl b (by simp [hb])]
      have hb := hl b (by simp)
      rw [response_receivers t alpha (hU.tilt c hc) (by rw [hU.rb b hb]; exact hU.rb_pos) (hU.H b hb) (hU.H c hc) hp hs rea img]
  exact hmul bs fun b hb => hb

theorem segmentList_H {bs : List Borehole} {ns : List ℕ} {rs : List (List ℝ)} (h : Splits bs ns rs) :
    ((segmentList bs ns rs).map Borehole.H).sum = (bs.map Borehole.H).sum := by
  refine sum_segmentList h _ _ fun b _ r _ hs => ?_
  rw [segments_sum, hs, mul_one]

end Verif.Gf
