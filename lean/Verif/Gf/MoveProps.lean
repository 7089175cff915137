import Verif.Gf.SimilarProps
import Verif.Gf.ScaleNetProps

/-!
# g-functions of inclined fields do not depend on the place and orientation of the field

A field of boreholes of any tilt is displaced, turned about a vertical axis and possibly mirrored, together with the orientations of its boreholes.
-/

noncomputable section

namespace Verif.Gf

open Bore FLS Sol Net Real

/-! ### Displacements -/

/-- `1`, or `-1` for a mirrored field. -/
def side (mirror : Bool) : ℝ := if mirror then -1 else 1

/-- Specification: the borehole mirrored with respect to the `x` axis (or not), turned by `θ` about the origin, and displaced by `(p, q)`. -/
def move (mirror : Bool) (θ p q : ℝ) (b : Borehole) : Borehole :=
  Borehole.new b.H b.D b.rb (p + (cos θ * b.x - sin θ * (side mirror * b.y))) (q + (sin θ * b.x + cos θ * (side mirror * b.y))) b.tilt (θ + side mirror * b.orientation)

/-- A borehole that is vertical, or tilted by more than the tolerance of `is_tilted`. -/
def Plain (b : Borehole) : Prop := b.tilt = 0 ∨ tilted b.tilt

variable (mirror : Bool) (θ p q : ℝ)

theorem side_sq : side mirror ^ 2 = 1 := by unfold side; split_ifs <;> norm_num

theorem cos_side (x : ℝ) : cos (side mirror * x) = cos x := by unfold side; split_ifs <;> simp

theorem sin_side (x : ℝ) : side mirror * sin (side mirror * x) = sin x := by unfold side; split_ifs <;> simp

/-- The direction of a moved borehole, when it has one. -/
theorem move_orientation {b : Borehole} (h : tilted b.tilt) : (move mirror θ p q b).orientation = θ + side mirror * b.orientation := by
  unfold move Borehole.new
  dsimp only
  rw [if_pos h]

theorem sin_move {b : Borehole} (h : Plain b) {f g : ℝ} (e : tilted b.tilt → f = g) : sin b.tilt * f = sin b.tilt * g := by
  rcases h with h | h
  · rw [h, sin_zero, zero_mul, zero_mul]
  · rw [e h]

theorem move_segmentAt {b : Borehole} (h : Plain b) (z ρ : ℝ) : (move mirror θ p q b).segmentAt z ρ = move mirror θ p q (b.segmentAt z ρ) := by
  have hs := sin_side mirror
  have h2 := side_sq mirror
  have e1 : sin b.tilt * cos (move mirror θ p q b).orientation = sin b.tilt * (cos θ * cos b.orientation - sin θ * (side mirror * sin b.orientation)) := sin_move h fun ht => by
    rw [move_orientation _ _ _ _ ht, cos_add, cos_side, ← hs b.orientation]
    linear_combination (sin θ * sin (side mirror * b.orientation)) * h2
  have e2 : sin b.tilt * sin (move mirror θ p q b).orientation = sin b.tilt * (sin θ * cos b.orientation + cos θ * (side mirror * sin b.orientation)) := sin_move h fun ht => by
    rw [move_orientation _ _ _ _ ht, sin_add, cos_side, ← hs b.orientation]
    linear_combination (-(cos θ * sin (side mirror * b.orientation))) * h2
  ext
  · rfl
  · rfl
  · rfl
  · show p + (cos θ * b.x - sin θ * (side mirror * b.y)) + z * sin b.tilt * cos (move mirror θ p q b).orientation =
      p + (cos θ * (b.x + z * sin b.tilt * cos b.orientation) - sin θ * (side mirror * (b.y + z * sin b.tilt * sin b.orientation)))
    linear_combination z * e1
  · show q + (sin θ * b.x + cos θ * (side mirror * b.y)) + z * sin b.tilt * sin (move mirror θ p q b).orientation =
      q + (sin θ * (b.x + z * sin b.tilt * cos b.orientation) + cos θ * (side mirror * (b.y + z * sin b.tilt * sin b.orientation)))
    linear_combination z * e2
  · rfl
  · show (if tilted b.tilt then (move mirror θ p q b).orientation else 0) = if tilted b.tilt then θ + side mirror * (if tilted b.tilt then b.orientation else 0) else 0
    split_ifs with ht
    · exact move_orientation _ _ _ _ ht
    · rfl

theorem move_segsFrom {b : Borehole} (h : Plain b) (r : List ℝ) (a : ℝ) : segsFrom (move mirror θ p q b) a r = (segsFrom b a r).map (move mirror θ p q) := by
  induction r generalizing a with
  | nil => rfl
  | cons ρ r ih => rw [segsFrom, segsFrom, List.map_cons, ih, ← move_segmentAt _ _ _ _ h]; rfl

theorem move_similar {bs : List Borehole} (h : ∀ b ∈ bs, Plain b) (ns : List ℕ) (rs : List (List ℝ)) : Similar 1 (move mirror θ p q) bs ns rs := by
  refine ⟨?_, fun b => (one_mul _).symm, fun b => rfl⟩
  unfold segmentList
  rw [List.zip_map_left, List.flatMap_map, List.map_flatMap]
  refine List.flatMap_congr fun x hx => ?_
  simp only [Prod.map_fst, Prod.map_snd, id_eq, segments_eq, move_segsFrom _ _ _ _ (h x.1 (List.of_mem_zip hx).1)]

theorem segments_plain {bs : List Borehole} (h : ∀ b ∈ bs, Plain b) (ns : List ℕ) (rs : List (List ℝ)) : ∀ s ∈ segmentList bs ns rs, Plain s := fun s hs => by
  unfold segmentList at hs
  rw [List.mem_flatMap] at hs
  obtain ⟨x, hx, hs⟩ := hs
  have := h x.1 (List.of_mem_zip hx).1
  unfold Plain at this ⊢
  rwa [segment_tilt _ _ s hs]

/-! ### Response factors -/

section
variable (a b : Borehole)

theorem move_dx : Incl.dx (move mirror θ p q a) (move mirror θ p q b) = cos θ * Incl.dx a b - sin θ * (side mirror * Incl.dy a b) := by
  unfold Incl.dx Incl.dy move Borehole.new; ring
theorem move_dy : Incl.dy (move mirror θ p q a) (move mirror θ p q b) = sin θ * Incl.dx a b + cos θ * (side mirror * Incl.dy a b) := by
  unfold Incl.dx Incl.dy move Borehole.new; ring

theorem move_dist : Incl.dx (move mirror θ p q a) (move mirror θ p q b) ^ 2 + Incl.dy (move mirror θ p q a) (move mirror θ p q b) ^ 2 = Incl.dx a b ^ 2 + Incl.dy a b ^ 2 := by
  rw [move_dx, move_dy]
  linear_combination (Incl.dx a b ^ 2 + Incl.dy a b ^ 2 * side mirror ^ 2) * sin_sq_add_cos_sq θ + Incl.dy a b ^ 2 * side_sq mirror

theorem move_pair : pairOf (move mirror θ p q a) (move mirror θ p q b) = pairOf a b := by
  have h : √(((move mirror θ p q a).x - (move mirror θ p q b).x) ^ 2 + ((move mirror θ p q a).y - (move mirror θ p q b).y) ^ 2) = √((a.x - b.x) ^ 2 + (a.y - b.y) ^ 2) :=
    congrArg Real.sqrt (move_dist mirror θ p q a b)
  unfold pairOf Borehole.distance
  rw [h]
  rfl

/-- The direction of a borehole and the line between the heads keep their angle. -/
theorem move_angle {e : Borehole} (he : Plain e) :
    sin e.tilt * (cos (move mirror θ p q e).orientation * Incl.dx (move mirror θ p q a) (move mirror θ p q b) + sin (move mirror θ p q e).orientation * Incl.dy (move mirror θ p q a) (move mirror θ p q b)) =
      sin e.tilt * (cos e.orientation * Incl.dx a b + sin e.orientation * Incl.dy a b) := sin_move he fun ht => by
  rw [move_orientation _ _ _ _ ht, move_dx, move_dy, cos_add, sin_add, cos_side, ← sin_side mirror e.orientation]
  have h := sin_sq_add_cos_sq θ
  linear_combination (cos e.orientation * Incl.dx a b + side mirror * sin (side mirror * e.orientation) * Incl.dy a b) * h

variable {a b} (ha : Plain a) (hb : Plain b)
include ha hb

theorem move_between : sin a.tilt * sin b.tilt * cos ((move mirror θ p q a).orientation - (move mirror θ p q b).orientation) = sin a.tilt * sin b.tilt * cos (a.orientation - b.orientation) := by
  rw [mul_assoc, mul_assoc]
  refine sin_move ha fun h1 => sin_move hb fun h2 => ?_
  rw [move_orientation _ _ _ _ h1, move_orientation _ _ _ _ h2, show θ + side mirror * a.orientation - (θ + side mirror * b.orientation) = side mirror * (a.orientation - b.orientation) by ring, cos_side]

theorem move_k : Incl.kRea0 (move mirror θ p q a) (move mirror θ p q b) = Incl.kRea0 a b ∧ Incl.kImg0 (move mirror θ p q a) (move mirror θ p q b) = Incl.kImg0 a b ∧
    Incl.kRea1 (move mirror θ p q a) (move mirror θ p q b) = Incl.kRea1 a b ∧ Incl.kImg1 (move mirror θ p q a) (move mirror θ p q b) = Incl.kImg1 a b ∧
    Incl.kRea2 (move mirror θ p q a) (move mirror θ p q b) = Incl.kRea2 a b ∧ Incl.kImg2 (move mirror θ p q a) (move mirror θ p q b) = Incl.kImg2 a b := by
  have h0 := move_between mirror θ p q ha hb
  have h1 := move_angle mirror θ p q a b ha
  have h2 := move_angle mirror θ p q a b hb
  refine ⟨?_, ?_, ?_, ?_, ?_, ?_⟩
  · exact congrArg (· + cos a.tilt * cos b.tilt) h0
  · exact congrArg (· - cos a.tilt * cos b.tilt) h0
  · exact congrArg (· + cos a.tilt * Incl.dzRea a b) h1
  · exact congrArg (· + cos a.tilt * Incl.dzImg a b) h1
  · exact congrArg (· + cos b.tilt * Incl.dzRea a b) h2
  · exact congrArg (· - cos b.tilt * Incl.dzImg a b) h2

omit ha hb in
theorem move_rr : Incl.rr (move mirror θ p q a) (move mirror θ p q b) = Incl.rr a b := by
  unfold Incl.rr
  rw [move_dist]
  rfl

theorem move_inclined (t alpha : ℝ) (nodes : List (ℝ × ℝ)) (rea img : Bool) : Incl.fls t alpha (move mirror θ p q a) (move mirror θ p q b) nodes rea img = Incl.fls t alpha a b nodes rea img := by
  obtain ⟨h1, h2, h3, h4, h5, h6⟩ := move_k mirror θ p q ha hb
  have e : Incl.integrand (move mirror θ p q a) (move mirror θ p q b) nodes rea img = Incl.integrand a b nodes rea img := by
    funext s
    unfold Incl.integrand
    rw [h1, h2, h3, h4, h5, h6, move_rr, move_dist]
    rfl
  unfold Incl.fls
  rw [e]
  rfl

theorem move_inclined_approx (t alpha : ℝ) (nodes : List (ℝ × ℝ)) (rea img : Bool) (N : ℤ) :
    Incl.approx t alpha (move mirror θ p q a) (move mirror θ p q b) nodes rea img N = Incl.approx t alpha a b nodes rea img N := by
  obtain ⟨h1, h2, h3, h4, h5, h6⟩ := move_k mirror θ p q ha hb
  unfold Incl.approx Incl.approxWith Incl.approxRea Incl.approxImg
  rw [h1, h2, h3, h4, h5, h6, move_dist]
  rfl

end

/-- Specification: response factors that only depend on the relative positions of vertical or clearly tilted boreholes. -/
def Relative (F : ℝ → Bool → Borehole → Borehole → ℝ) : Prop := ∀ mirror θ p q t v s r, Plain s → Plain r → F t v (move mirror θ p q s) (move mirror θ p q r) = F t v s r

theorem lineSource_relative (nodes : List (ℝ × ℝ)) (alpha : ℝ) : Relative (lineSource nodes alpha) := fun mirror θ p q t v s r hs hr => by
  unfold lineSource
  rw [move_pair, move_inclined mirror θ p q hs hr]

theorem lineSourceApprox_relative (N : ℤ) (nodes : List (ℝ × ℝ)) (alpha : ℝ) : Relative (lineSourceApprox N nodes alpha) := fun mirror θ p q t v s r hs hr => by
  unfold lineSourceApprox
  rw [move_pair, move_inclined_approx mirror θ p q hs hr]

/-! ### g-functions -/

section

variable {F : ℝ → Bool → Borehole → Borehole → ℝ} (hF : Relative F) {bs : List Borehole} (hb : ∀ b ∈ bs, Plain b) (ns : List ℕ) (rs : List (List ℝ))
include hF hb

theorem Relative.homologous : Homologous 1 (move mirror θ p q) (segmentList bs ns rs) F F := fun t v s hs r hr => by
  rw [one_mul]
  exact hF mirror θ p q t v s r (segments_plain hb ns rs s hs) (segments_plain hb ns rs r hr)

/-- **C127** (uniform heat extraction rate).  Displacing, turning or mirroring a field of boreholes of any tilts does not change the g-function. -/
theorem uniform_moved (time : List ℝ) (thr : ℝ) : uniformDetailed F (bs.map (move mirror θ p q)) ns rs time thr = uniformDetailed F bs ns rs time thr := by
  simpa only [one_mul, List.map_id'] using uniform_similar one_pos one_pos (move_similar mirror θ p q hb ns rs) (hF.homologous mirror θ p q hb ns rs) time thr

/-- **C127** (uniform temperature).  The same with a uniform temperature, with the same heat extraction rates. -/
theorem temperature_moved (time : List ℝ) (thr : ℝ) : temperatureDetailed F (bs.map (move mirror θ p q)) ns rs time thr =
    (temperatureDetailed F bs ns rs time thr).map fun o => (o.1, o.2.map fun Q i => Q (i.cast (move_similar mirror θ p q hb ns rs).count)) := by
  simpa only [one_mul, List.map_id'] using temperature_similar one_pos one_pos (move_similar mirror θ p q hb ns rs) (hF.homologous mirror θ p q hb ns rs) time thr

/-- **C127** (networks).  The same with a mixed inlet temperature, with the same heat extraction rates and wall temperatures. -/
theorem network_moved (conn : Option (List ℤ)) (pipe : Fin bs.length → (r : List ℝ) → Net.Pipe r.length) (ks : ℝ) (m : List ℝ) (cp : ℝ) (time : List ℝ) (thr : ℝ) :
    mixedNetwork F (bs.map (move mirror θ p q)) ns rs conn (fun i => pipe (i.cast (List.length_map _))) ks m cp time thr =
      (mixedNetwork F bs ns rs conn pipe ks m cp time thr).map fun o =>
        (o.1, o.2.1.map fun Q i => Q (i.cast (move_similar mirror θ p q hb ns rs).count), fun i => o.2.2 (i.cast (move_similar mirror θ p q hb ns rs).count)) := by
  have h := network_similar (κ := 1) one_pos one_pos one_pos (move_similar mirror θ p q hb ns rs) (hF.homologous mirror θ p q hb ns rs) conn (pipe := pipe)
    (pipe' := fun i => pipe (i.cast (List.length_map _))) (fun i r => ⟨fun m cp => by rw [one_mul, one_mul], fun m cp s => by rw [one_mul, one_mul],
      fun m cp s => by rw [one_mul, one_mul, one_mul], fun m cp s u => by rw [one_mul, one_mul, one_mul]⟩) ks m cp time thr
  simpa only [one_mul, List.map_id'] using h

end

/-! ### Concrete cases -/

/-- Two boreholes inclined in different directions and a vertical one. -/
def fieldT : List Borehole := [⟨100, 4, 1 / 10, 0, 0, 1 / 5, 1⟩, ⟨150, 4, 1 / 10, 5, 0, 1 / 10, 3⟩, ⟨80, 2, 1 / 10, 0, 6, 0, 0⟩]

theorem fieldT_plain : ∀ b ∈ fieldT, Plain b := by
  unfold fieldT Plain tilted
  simp only [List.mem_cons, List.not_mem_nil, or_false, forall_eq_or_imp, forall_eq]
  refine ⟨Or.inr ?_, Or.inr ?_, Or.inl trivial⟩ <;> norm_num [abs_of_pos]

/-- The field turned by a quarter, and displaced. -/
theorem fieldT_moved : fieldT.map (move false (π / 2) 7 (-3)) = [⟨100, 4, 1 / 10, 7, -3, 1 / 5, π / 2 + 1⟩, ⟨150, 4, 1 / 10, 7, 2, 1 / 10, π / 2 + 3⟩, ⟨80, 2, 1 / 10, 1, -3, 0, 0⟩] := by
  have h1 : tilted (1 / 5 : ℝ) := by unfold tilted; norm_num [abs_of_pos]
  have h2 : tilted (1 / 10 : ℝ) := by unfold tilted; norm_num [abs_of_pos]
  have h3 : ¬ tilted (0 : ℝ) := by unfold tilted; norm_num
  simp only [fieldT, List.map_cons, List.map_nil, move, Borehole.new, side, cos_pi_div_two, sin_pi_div_two, if_pos h1, if_pos h2, if_neg h3]
  norm_num

/-- The field mirrored. -/
theorem fieldT_mirrored : fieldT.map (move true 0 0 0) = [⟨100, 4, 1 / 10, 0, 0, 1 / 5, -1⟩, ⟨150, 4, 1 / 10, 5, 0, 1 / 10, -3⟩, ⟨80, 2, 1 / 10, 0, -6, 0, 0⟩] := by
  have h1 : tilted (1 / 5 : ℝ) := by unfold tilted; norm_num [abs_of_pos]
  have h2 : tilted (1 / 10 : ℝ) := by unfold tilted; norm_num [abs_of_pos]
  have h3 : ¬ tilted (0 : ℝ) := by unfold tilted; norm_num
  simp only [fieldT, List.map_cons, List.map_nil, move, Borehole.new, side, cos_zero, sin_zero, if_pos h1, if_pos h2, if_neg h3]
  norm_num

example (nodes : List (ℝ × ℝ)) :
    uniformDetailed (lineSource nodes (1 / 10 ^ 6)) [⟨100, 4, 1 / 10, 7, -3, 1 / 5, π / 2 + 1⟩, ⟨150, 4, 1 / 10, 7, 2, 1 / 10, π / 2 + 3⟩, ⟨80, 2, 1 / 10, 1, -3, 0, 0⟩]
        [2, 1, 1] [[1 / 4, 3 / 4], [1], [1]] [10 ^ 6, 10 ^ 9] (10 ^ 4) =
      uniformDetailed (lineSource nodes (1 / 10 ^ 6)) fieldT [2, 1, 1] [[1 / 4, 3 / 4], [1], [1]] [10 ^ 6, 10 ^ 9] (10 ^ 4) := by
  rw [← fieldT_moved]
  exact uniform_moved _ _ _ _ (lineSource_relative nodes _) fieldT_plain _ _ _ _

example (nodes : List (ℝ × ℝ)) :
    (temperatureDetailed (lineSourceApprox 10 nodes (1 / 10 ^ 6)) [⟨100, 4, 1 / 10, 0, 0, 1 / 5, -1⟩, ⟨150, 4, 1 / 10, 5, 0, 1 / 10, -3⟩, ⟨80, 2, 1 / 10, 0, -6, 0, 0⟩]
        [2, 1, 1] [[1 / 4, 3 / 4], [1], [1]] [10 ^ 6, 10 ^ 9] (10 ^ 4)).map Prod.fst =
      (temperatureDetailed (lineSourceApprox 10 nodes (1 / 10 ^ 6)) fieldT [2, 1, 1] [[1 / 4, 3 / 4], [1], [1]] [10 ^ 6, 10 ^ 9] (10 ^ 4)).map Prod.fst := by
  rw [← fieldT_mirrored, temperature_moved _ _ _ _ (lineSourceApprox_relative 10 nodes _) fieldT_plain, Option.map_map]
  rfl

example (nodes : List (ℝ × ℝ)) (tubes : Fin fieldT.length → Pipe.UTube) :
    (mixedNetwork (lineSource nodes (1 / 10 ^ 6)) (fieldT.map (move true 1 5 5)) [2, 1, 1] [[1 / 4, 3 / 4], [1], [1]] (some [-1, 0, -1])
        (fun i r => (tubes (i.cast (List.length_map _))).netPipe (edgesAt fieldT[i.cast (List.length_map _)] r) r.length) 2 [1 / 2, 1 / 4] 4000 [10 ^ 6, 10 ^ 9] (10 ^ 4)).map Prod.fst =
      (mixedNetwork (lineSource nodes (1 / 10 ^ 6)) fieldT [2, 1, 1] [[1 / 4, 3 / 4], [1], [1]] (some [-1, 0, -1])
        (fun i r => (tubes i).netPipe (edgesAt fieldT[i] r) r.length) 2 [1 / 2, 1 / 4] 4000 [10 ^ 6, 10 ^ 9] (10 ^ 4)).map Prod.fst := by
  rw [network_moved _ _ _ _ (lineSource_relative nodes _) fieldT_plain _ _ (some [-1, 0, -1]) (fun i r => (tubes i).netPipe (edgesAt fieldT[i] r) r.length), Option.map_map]
  rfl

end Verif.Gf
