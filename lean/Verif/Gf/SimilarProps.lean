import Verif.Sol.ScaleLemmas
import Verif.Net.ScaleLemmas
import Verif.Sol.DetProps

/-!
# g-functions of similar fields

A map of boreholes that multiplies all lengths by `c` and keeps the response factors, up to a factor on the times, keeps the g-functions.
-/

noncomputable section

namespace Verif.Gf

open Bore Sol Net

/-! ### Response factors -/

variable {c κ lam : ℝ} {φ : Borehole → Borehole} {bs : List Borehole} {ns : List ℕ} {rs : List (List ℝ)}

/-- Specification: `φ` multiplies lengths by `c`, keeps vertical boreholes vertical, and commutes with the division of the field `bs` into segments. -/
structure Similar (c : ℝ) (φ : Borehole → Borehole) (bs : List Borehole) (ns : List ℕ) (rs : List (List ℝ)) : Prop where
  segments : segmentList (bs.map φ) ns rs = (segmentList bs ns rs).map φ
  length : ∀ b, (φ b).H = c * b.H
  vertical : ∀ b, vertical (φ b) = vertical b

theorem Similar.count (h : Similar c φ bs ns rs) : (segmentList (bs.map φ) ns rs).length = (segmentList bs ns rs).length := by rw [h.segments, List.length_map]

theorem detailed_map (hc : 0 < c) (h : Similar c φ bs ns rs) (K : Bool → Borehole → Borehole → ℝ) :
    detailed K (bs.map φ) ns rs = detailed (fun v s r => K v (φ s) (φ r)) bs ns rs := by
  have hv : ∀ l : List Borehole, (l.map φ).all vertical = l.all vertical := fun l => by
    rw [List.all_map]
    congr 1
    funext b
    exact h.vertical b
  have e1 : ∀ segs : List Borehole, selfWrites K (bs.map φ) ns (segs.map φ) = selfWrites (fun v s r => K v (φ s) (φ r)) bs ns segs := fun segs => by
    unfold selfWrites
    dsimp only
    rw [List.length_map]
    congr 1
    funext x
    rw [List.getElem?_map, List.getElem?_map, hv]
    cases segs[x.1]? <;> cases segs[x.2]? <;> simp
  have e2 : ∀ (segs : List Borehole) (i : ℕ), blockWrites K bs.length ns (segs.map φ) i = blockWrites (fun v s r => K v (φ s) (φ r)) bs.length ns segs i := fun segs i => by
    unfold blockWrites
    split_ifs
    · dsimp only
      rw [← List.map_drop, ← List.map_drop, ← List.map_take, hv, hv, List.zipIdx_map, List.zipIdx_map]
      have hH : ∀ r s : Borehole, (φ r).H / (φ s).H = r.H / s.H := fun r s => by rw [h.length, h.length, mul_div_mul_left _ _ hc.ne']
      simp only [List.flatMap_map, List.map_map, Function.comp_def, Prod.map_fst, Prod.map_snd, id_eq, hH]
    · rfl
  have e3 : blockWrites K bs.length ns ((segmentList bs ns rs).map φ) = blockWrites (fun v s r => K v (φ s) (φ r)) bs.length ns (segmentList bs ns rs) := funext (e2 _)
  unfold detailed
  dsimp only
  rw [h.segments, e1, List.length_map, e3]

theorem detailed_congr {K K' : Bool → Borehole → Borehole → ℝ} (h : ∀ v, ∀ s ∈ segmentList bs ns rs, ∀ r ∈ segmentList bs ns rs, K v s r = K' v s r) : detailed K bs ns rs = detailed K' bs ns rs := by
  unfold detailed
  dsimp only
  generalize segmentList bs ns rs = segs at h
  have e1 : selfWrites K bs ns segs = selfWrites K' bs ns segs := by
    unfold selfWrites
    dsimp only
    congr 1
    funext x
    cases h1 : segs[x.1]? with
    | none => rfl
    | some a =>
      cases h2 : segs[x.2]? with
      | none => rfl
      | some b => dsimp only; rw [h _ a (List.mem_of_getElem? h1) b (List.mem_of_getElem? h2)]
  have e2 : blockWrites K bs.length ns segs = blockWrites K' bs.length ns segs := by
    funext i
    unfold blockWrites
    split_ifs
    · dsimp only
      have m1 : ∀ x ∈ (segs.drop (i1 ns i)).zipIdx, x.1 ∈ segs := fun x hx => List.mem_of_mem_drop (List.fst_mem_of_mem_zipIdx hx)
      have m2 : ∀ x ∈ ((segs.drop (i0 ns i)).take (i1 ns i - i0 ns i)).zipIdx, x.1 ∈ segs := fun x hx => List.mem_of_mem_drop (List.mem_of_mem_take (List.fst_mem_of_mem_zipIdx hx))
      congr 1
      · refine List.flatMap_congr fun x hx => List.map_congr_left fun y hy => ?_
        rw [h _ y.1 (m1 y hy) x.1 (m2 x hx)]
      · refine List.flatMap_congr fun x hx => List.map_congr_left fun y hy => ?_
        rw [h _ x.1 (m1 x hx) y.1 (m2 y hy)]
    · rfl
  rw [e1, e2]

variable {F F' : ℝ → Bool → Borehole → Borehole → ℝ}

/-- Specification: the response factors between the images of segments of the field, at times multiplied by `lam`, are those between the segments. -/
def Homologous (lam : ℝ) (φ : Borehole → Borehole) (segs : List Borehole) (F F' : ℝ → Bool → Borehole → Borehole → ℝ) : Prop :=
  ∀ t v, ∀ s ∈ segs, ∀ r ∈ segs, F' (lam * t) v (φ s) (φ r) = F t v s r

theorem detailed_times (hc : 0 < c) (h : Similar c φ bs ns rs) (hK : Homologous lam φ (segmentList bs ns rs) F F') (t : ℝ) : detailed (F' (lam * t)) (bs.map φ) ns rs = detailed (F t) bs ns rs := by
  rw [detailed_map hc h]
  exact detailed_congr (hK t)

theorem available_iff (hl : 0 < lam) (hc : 0 < c) (h : Similar c φ bs ns rs) (hK : Homologous lam φ (segmentList bs ns rs) F F') (time : List ℝ) (thr : ℝ) :
    (∀ t ∈ timeLong (time.map (lam * ·)) (lam * thr), (detailed (F' t) (bs.map φ) ns rs).isSome) ↔ ∀ t ∈ timeLong time thr, (detailed (F t) bs ns rs).isSome := by
  rw [timeLong_scale hl, List.forall_mem_map]
  simp only [detailed_times hc h hK]

theorem lengths_similar (h : Similar c φ bs ns rs) (i : Fin (segmentList (bs.map φ) ns rs).length) : (segmentList (bs.map φ) ns rs)[i].H = c * (segmentList bs ns rs)[i.cast h.count].H := by
  simp only [Fin.getElem_fin, h.segments, List.getElem_map, h.length]
  rfl

theorem values_similar (hc : 0 < c) (h : Similar c φ bs ns rs) (hK : Homologous lam φ (segmentList bs ns rs) F F') (tl : List ℝ) (i j : Fin (segmentList (bs.map φ) ns rs).length) :
    responses F' (bs.map φ) ns rs (tl.map (lam * ·)) i j = responses F bs ns rs tl (i.cast h.count) (j.cast h.count) := by
  unfold responses
  rw [List.map_map]
  refine List.map_congr_left fun t _ => ?_
  simp only [Function.comp_apply, detailed_times hc h hK]
  rfl

/-! ### Systems of equations with other indices -/

theorem ubwt_cast {n n' : ℕ} (e : n' = n) (hl : 0 < lam) (hc : 0 < c) {H : Fin n → ℝ} {H' : Fin n' → ℝ} (hH : ∀ i, H' i = c * H (i.cast e)) {resp : List ℝ → Fin n → Fin n → List ℝ}
    {resp' : List ℝ → Fin n' → Fin n' → List ℝ} (time : List ℝ) (thr : ℝ)
    (hr : ∀ i j, resp' ((timeLong time thr).map (lam * ·)) i j = resp (timeLong time thr) (i.cast e) (j.cast e)) :
    ubwt H' resp' (time.map (lam * ·)) (lam * thr) = (ubwt H resp time thr).map fun o => (o.1, o.2.map fun Q i => Q (i.cast e)) := by
  subst e
  obtain rfl : H' = fun i => c * H i := funext hH
  rw [ubwt_scale hl hc H (resp := resp) time thr (funext fun i => funext fun j => hr i j)]
  cases ubwt H resp time thr <;> simp

/-- The same field with all lengths multiplied by `c` and all conductances per unit length by `κ`. -/
def scaleFlow {n n' : ℕ} (e : n' = n) (c κ : ℝ) (f : Flow n) : Flow n' :=
  ⟨fun i => κ * c * f.aIn (i.cast e), fun i j => κ * c * f.aB (i.cast e) (j.cast e), κ * c * f.mcp, f.R / κ, κ * f.ks, fun i => c * f.Hb (i.cast e)⟩

theorem mift_cast {n n' : ℕ} (e : n' = n) (hl : 0 < lam) (hc : 0 < c) {κ : ℝ} (hκ : 0 < κ) (f : Flow n) {H : Fin n → ℝ} {H' : Fin n' → ℝ} (hH : ∀ i, H' i = c * H (i.cast e))
    {resp : List ℝ → Fin n → Fin n → List ℝ} {resp' : List ℝ → Fin n' → Fin n' → List ℝ} (time : List ℝ) (thr : ℝ)
    (hr : ∀ i j, resp' ((timeLong time thr).map (lam * ·)) i j = resp (timeLong time thr) (i.cast e) (j.cast e)) :
    mift H' (scaleFlow e c κ f) resp' (time.map (lam * ·)) (lam * thr) = (mift H f resp time thr).map fun o => (o.1, o.2.1.map fun Q i => Q (i.cast e), fun i => o.2.2 (i.cast e)) := by
  subst e
  obtain rfl : H' = fun i => c * H i := funext hH
  rw [mift_scale hl hc hκ (f := f) ⟨fun _ => rfl, fun _ _ => rfl, rfl, rfl, rfl, fun _ => rfl⟩ H (resp := resp) time thr (funext fun i => funext fun j => hr i j)]
  cases mift H f resp time thr <;> simp

theorem uhtr_cast {n n' : ℕ} (e : n' = n) (hl : 0 < lam) (hc : 0 < c) {H : Fin n → ℝ} {H' : Fin n' → ℝ} (hH : ∀ i, H' i = c * H (i.cast e)) {resp : List ℝ → Fin n → Fin n → List ℝ}
    {resp' : List ℝ → Fin n' → Fin n' → List ℝ} (time : List ℝ) (thr : ℝ)
    (hr : ∀ i j, resp' ((timeLong time thr).map (lam * ·)) i j = resp (timeLong time thr) (i.cast e) (j.cast e)) :
    uhtr H' resp' (time.map (lam * ·)) (lam * thr) = uhtr H resp time thr := by
  subst e
  obtain rfl : H' = fun i => c * H i := funext hH
  exact uhtr_scale hl hc H time thr (funext fun i => funext fun j => hr i j)

/-! ### g-functions -/

theorem uniform_similar (hl : 0 < lam) (hc : 0 < c) (hφ : Similar c φ bs ns rs) (hK : Homologous lam φ (segmentList bs ns rs) F F') (time : List ℝ) (thr : ℝ) :
    uniformDetailed F' (bs.map φ) ns rs (time.map (lam * ·)) (lam * thr) = uniformDetailed F bs ns rs time thr := by
  unfold uniformDetailed
  dsimp only
  by_cases h : ∀ t ∈ timeLong time thr, (detailed (F t) bs ns rs).isSome
  · rw [if_pos h, if_pos ((available_iff hl hc hφ hK time thr).mpr h)]
    congr 1
    exact uhtr_cast hφ.count hl hc (lengths_similar hφ) time thr fun i j => values_similar hc hφ hK _ i j
  · rw [if_neg h, if_neg fun h' => h ((available_iff hl hc hφ hK time thr).mp h')]

theorem temperature_similar (hl : 0 < lam) (hc : 0 < c) (hφ : Similar c φ bs ns rs) (hK : Homologous lam φ (segmentList bs ns rs) F F') (time : List ℝ) (thr : ℝ) :
    temperatureDetailed F' (bs.map φ) ns rs (time.map (lam * ·)) (lam * thr) = (temperatureDetailed F bs ns rs time thr).map fun o => (o.1, o.2.map fun Q i => Q (i.cast hφ.count)) := by
  unfold temperatureDetailed
  by_cases h : ∀ t ∈ timeLong time thr, (detailed (F t) bs ns rs).isSome
  · rw [if_pos h, if_pos ((available_iff hl hc hφ hK time thr).mpr h)]
    exact ubwt_cast hφ.count hl hc (lengths_similar hφ) time thr fun i j => values_similar hc hφ hK _ i j
  · rw [if_neg h, if_neg fun h' => h ((available_iff hl hc hφ hK time thr).mp h')]
    rfl

theorem mixed_similar (hl : 0 < lam) (hc : 0 < c) (hκ : 0 < κ) (hφ : Similar c φ bs ns rs) (hK : Homologous lam φ (segmentList bs ns rs) F F') (f : Flow (segmentList bs ns rs).length)
    (time : List ℝ) (thr : ℝ) : mixedDetailed F' (bs.map φ) ns rs (scaleFlow hφ.count c κ f) (time.map (lam * ·)) (lam * thr) =
      (mixedDetailed F bs ns rs f time thr).map fun o => (o.1, o.2.1.map fun Q i => Q (i.cast hφ.count), fun i => o.2.2 (i.cast hφ.count)) := by
  unfold mixedDetailed
  by_cases h : ∀ t ∈ timeLong time thr, (detailed (F t) bs ns rs).isSome
  · rw [if_pos h, if_pos ((available_iff hl hc hφ hK time thr).mpr h)]
    exact mift_cast hφ.count hl hc hκ f (lengths_similar hφ) time thr fun i j => values_similar hc hφ hK _ i j
  · rw [if_neg h, if_neg fun h' => h ((available_iff hl hc hφ hK time thr).mp h')]
    rfl

/-! ### Networks -/

/-- `networkFlow` after `_format_inputs`, for `n` boreholes and `N` heat sources. -/
def flowCore (n N : ℕ) (t : Topology) (rs : List (List ℝ)) (pipe : Fin n → (r : List ℝ) → Net.Pipe r.length) (f : Formatted) (Htot mcp ks : ℝ) (Hb : Fin N → ℝ) : Option (Flow N) :=
  match netInlet t (fun i => pipe i (rs.getD i [])) f, fieldResistance t (fun i => pipe i [1]) f Htot with
  | some ki, some R =>
    if h : ∑ i : Fin n, (rs.getD i []).length = N then some (netFlow h (boreHeat t (fun i => pipe i (rs.getD i [])) f ki) mcp R ks Hb)
    else none
  | _, _ => none

theorem networkFlow_eq (bs : List Borehole) (ns : List ℕ) (rs : List (List ℝ)) (t : Topology) (pipe : Fin bs.length → (r : List ℝ) → Net.Pipe r.length) (ks : ℝ) (m : List ℝ) (cp : ℝ) :
    networkFlow bs ns rs t pipe ks m cp = match format t m [cp] with
      | .error _ => none
      | .ok f => flowCore bs.length _ t rs pipe f (bs.map Borehole.H).sum ((m.map fun a => |a| * cp).sum) ks (segmentLengths bs ns rs) := by
  unfold networkFlow
  cases Net.format t m [cp] with
  | error e => rfl
  | ok f =>
    dsimp only
    unfold flowCore
    cases netInlet t (fun i : Fin bs.length => pipe i (rs.getD i [])) f with
    | none => rfl
    | some ki => cases fieldResistance t (fun i => pipe i [1]) f (bs.map Borehole.H).sum <;> rfl

theorem flowCore_scale {c κ : ℝ} (hc : 0 < c) (hκ : 0 < κ) {n N : ℕ} (t : Topology) (rs : List (List ℝ)) {pipe pipe' : Fin n → (r : List ℝ) → Net.Pipe r.length}
    (hp : ∀ i r, (pipe i r).Scaled (κ * c) (pipe' i r)) (f : Formatted) (Htot mcp ks : ℝ) (Hb : Fin N → ℝ) :
    flowCore n N t rs pipe' (f.scale (κ * c)) (c * Htot) (κ * c * mcp) (κ * ks) (fun i => c * Hb i) = (flowCore n N t rs pipe f Htot mcp ks Hb).map (scaleFlow rfl c κ) := by
  unfold flowCore
  rw [netInlet_scale (ns := fun i : Fin n => (rs.getD i []).length) fun i => hp i (rs.getD i []), fieldResistance_scale hc hκ fun i => hp i [1]]
  cases netInlet t (fun i : Fin n => pipe i (rs.getD i [])) f with
  | none => rfl
  | some ki =>
    cases fieldResistance t (fun i => pipe i [1]) f Htot with
    | none => rfl
    | some R =>
      simp only [Option.map_some]
      by_cases h : ∑ i : Fin n, (rs.getD i []).length = N
      · rw [dif_pos h, dif_pos h, boreHeat_scale (ns := fun i : Fin n => (rs.getD i []).length) fun i => hp i (rs.getD i [])]
        rfl
      · rw [dif_neg h, dif_neg h]
        rfl

theorem flowCore_cast {c κ : ℝ} (hc : 0 < c) (hκ : 0 < κ) {n n' N N' : ℕ} (e : n' = n) (eN : N' = N) (t : Topology) (rs : List (List ℝ)) {pipe : Fin n → (r : List ℝ) → Net.Pipe r.length}
    {pipe' : Fin n' → (r : List ℝ) → Net.Pipe r.length} (hp : ∀ i r, (pipe (i.cast e) r).Scaled (κ * c) (pipe' i r)) (f : Formatted) {Htot Htot' mcp mcp' ks : ℝ} {Hb : Fin N → ℝ}
    {Hb' : Fin N' → ℝ} (hH : Htot' = c * Htot) (hm : mcp' = κ * c * mcp) (hb : ∀ i, Hb' i = c * Hb (i.cast eN)) :
    flowCore n' N' t rs pipe' (f.scale (κ * c)) Htot' mcp' (κ * ks) Hb' = (flowCore n N t rs pipe f Htot mcp ks Hb).map (scaleFlow eN c κ) := by
  subst e eN hH hm
  obtain rfl : Hb' = fun i => c * Hb i := funext hb
  exact flowCore_scale hc hκ t rs hp f Htot mcp ks Hb


theorem networkFlow_similar (hc : 0 < c) (hκ : 0 < κ) (hφ : Similar c φ bs ns rs) (t : Topology) {pipe : Fin bs.length → (r : List ℝ) → Net.Pipe r.length}
    {pipe' : Fin (bs.map φ).length → (r : List ℝ) → Net.Pipe r.length} (hp : ∀ i r, (pipe (i.cast (List.length_map _)) r).Scaled (κ * c) (pipe' i r)) (ks : ℝ) (m : List ℝ) (cp : ℝ) :
    networkFlow (bs.map φ) ns rs t pipe' (κ * ks) (m.map (κ * c * ·)) cp = (networkFlow bs ns rs t pipe ks m cp).map (scaleFlow hφ.count c κ) := by
  rw [networkFlow_eq, networkFlow_eq, format_scale (mul_pos hκ hc)]
  cases Net.format t m [cp] with
  | error e => rfl
  | ok f =>
    refine flowCore_cast hc hκ (List.length_map _) hφ.count t rs hp f ?_ ?_ (lengths_similar hφ)
    · rw [List.map_map, ← List.sum_map_mul_left]
      congr 1
      exact List.map_congr_left fun b _ => hφ.length b
    · rw [List.map_map, ← List.sum_map_mul_left]
      congr 1
      refine List.map_congr_left fun a _ => ?_
      simp only [Function.comp_apply, abs_mul, abs_of_pos hκ, abs_of_pos hc]
      ring

theorem network_similar (hl : 0 < lam) (hc : 0 < c) (hκ : 0 < κ) (hφ : Similar c φ bs ns rs) (hK : Homologous lam φ (segmentList bs ns rs) F F') (conn : Option (List ℤ))
    {pipe : Fin bs.length → (r : List ℝ) → Net.Pipe r.length} {pipe' : Fin (bs.map φ).length → (r : List ℝ) → Net.Pipe r.length}
    (hp : ∀ i r, (pipe (i.cast (List.length_map _)) r).Scaled (κ * c) (pipe' i r)) (ks : ℝ) (m : List ℝ) (cp : ℝ) (time : List ℝ) (thr : ℝ) :
    mixedNetwork F' (bs.map φ) ns rs conn pipe' (κ * ks) (m.map (κ * c * ·)) cp (time.map (lam * ·)) (lam * thr) =
      (mixedNetwork F bs ns rs conn pipe ks m cp time thr).map fun o => (o.1, o.2.1.map fun Q i => Q (i.cast hφ.count), fun i => o.2.2 (i.cast hφ.count)) := by
  unfold mixedNetwork
  rw [List.length_map]
  cases construct bs.length conn with
  | error e => rfl
  | ok t =>
    dsimp only
    rw [networkFlow_similar hc hκ hφ t hp]
    cases networkFlow bs ns rs t pipe ks m cp with
    | none => rfl
    | some f => exact mixed_similar hl hc hκ hφ hK f time thr

end Verif.Gf
