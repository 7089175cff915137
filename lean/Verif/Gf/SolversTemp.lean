import Verif.Gf.SolversProps
import Verif.Gf.TempProps

/-!
# Uniform temperature and mixed inlet temperature: `similarities` against `detailed`
-/

noncomputable section

namespace Verif.Gf

open Bore FLS Sol

theorem map_range_eq {α : Type*} (l : List α) (d : α) : (List.range l.length).map (fun a => l.getD a d) = l := by
  apply List.ext_getElem
  · simp
  · intro i h1 h2
    simp [List.getD_eq_getElem?_getD, h2]

theorem sim_segmentList (S : Sim) (hr : ∀ k < S.N, (S.rs k).length = S.ns k) :
    (segmentList ((List.range S.N).map S.bore) ((List.range S.N).map S.ns) ((List.range S.N).map S.rs)).map Borehole.H = lengths S := by
  unfold segmentList lengths
  rw [List.zip_map', List.zip_map', List.flatMap_map, List.map_flatMap, List.flatMap_def, List.flatMap_def]
  congr 1
  refine List.map_congr_left fun k hk => ?_
  have hk := List.mem_range.mp hk
  have h2 := segments_length (S.bore k) (S.rs k)
  rw [hr k hk] at h2
  conv_lhs => rw [← map_range_eq ((S.bore k).segments (S.rs k)) (S.bore k), h2]
  rw [List.map_map]
  rfl

theorem sim_lengths_length (S : Sim) : (lengths S).length = S.first S.N := blocks_length S (fun k a => (S.seg k a).H) S.N

theorem temperatureOf_congr {n : ℕ} {len len' : List ℝ} {F F' : ℝ → Option (ℕ → ℕ → ℝ)} (hlen : ∀ i < n, len.getD i 0 = len'.getD i 0) (hs : ∀ t, (F t).isSome ↔ (F' t).isSome)
    (hF : ∀ t, ∀ i < n, ∀ j < n, ((F t).getD fun _ _ => 0) i j = ((F' t).getD fun _ _ => 0) i j) (time : List ℝ) (thr : ℝ) :
    temperatureOf n len F time thr = temperatureOf n len' F' time thr := by
  unfold temperatureOf
  have e1 : (fun i : Fin n => len.getD i 0) = fun i : Fin n => len'.getD i 0 := funext fun i => hlen i i.isLt
  have e2 : (fun (tl : List ℝ) (i j : Fin n) => tl.map fun t => ((F t).getD fun _ _ => 0) i j) = fun (tl : List ℝ) (i j : Fin n) => tl.map fun t => ((F' t).getD fun _ _ => 0) i j := by
    funext tl i j
    exact List.map_congr_left fun t _ => hF t i i.isLt j j.isLt
  rw [e1, e2]
  simp only [hs]

theorem mixedOf_congr {n : ℕ} {len len' : List ℝ} {F F' : ℝ → Option (ℕ → ℕ → ℝ)} (hlen : ∀ i < n, len.getD i 0 = len'.getD i 0) (hs : ∀ t, (F t).isSome ↔ (F' t).isSome)
    (hF : ∀ t, ∀ i < n, ∀ j < n, ((F t).getD fun _ _ => 0) i j = ((F' t).getD fun _ _ => 0) i j) (f : Flow n) (time : List ℝ) (thr : ℝ) :
    mixedOf n len F f time thr = mixedOf n len' F' f time thr := by
  unfold mixedOf
  have e1 : (fun i : Fin n => len.getD i 0) = fun i : Fin n => len'.getD i 0 := funext fun i => hlen i i.isLt
  have e2 : (fun (tl : List ℝ) (i j : Fin n) => tl.map fun t => ((F t).getD fun _ _ => 0) i j) = fun (tl : List ℝ) (i j : Fin n) => tl.map fun t => ((F' t).getD fun _ _ => 0) i j := by
    funext tl i j
    exact List.map_congr_left fun t _ => hF t i i.isLt j j.isLt
  rw [e1, e2]
  simp only [hs]

theorem lengths_fun (l : List Borehole) : (fun i : Fin l.length => (l.map Borehole.H).getD i 0) = fun i : Fin l.length => l[i].H := by
  funext i
  simp [List.getD_eq_getElem?_getD]

theorem temperatureDetailed_of (K : ℝ → Bool → Borehole → Borehole → ℝ) (bs : List Borehole) (ns : List ℕ) (rs : List (List ℝ)) (time : List ℝ) (thr : ℝ) :
    temperatureDetailed K bs ns rs time thr = temperatureOf _ ((segmentList bs ns rs).map Borehole.H) (fun t => detailed (K t) bs ns rs) time thr := by
  unfold temperatureOf
  rw [lengths_fun]
  rfl

theorem mixedDetailed_of (K : ℝ → Bool → Borehole → Borehole → ℝ) (bs : List Borehole) (ns : List ℕ) (rs : List (List ℝ)) (f : Flow (segmentList bs ns rs).length) (time : List ℝ) (thr : ℝ) :
    mixedDetailed K bs ns rs f time thr = mixedOf _ ((segmentList bs ns rs).map Borehole.H) (fun t => detailed (K t) bs ns rs) f time thr := by
  unfold mixedOf
  rw [lengths_fun]
  rfl

/-- **C103** (exact similarities).  Where the similarities are exact, the g-functions, the heat extraction rates and the temperatures with the `similarities` and the `detailed` solver
are the same, for a uniform temperature and for a mixed inlet temperature of any network: both fail, or both give the same values. -/
theorem similarities_solve {alpha : ℝ} {S : Sim} (hS : S.Valid) (hE : S.Exact) {dist : List (ℕ × ℕ) → List ℝ × (ℕ → ℕ)} (hdist : S.DistOk dist)
    {K : ℝ → Bool → Borehole → Borehole → ℝ} (hK : ∀ t s r, K t true s r = fls t alpha (pairOf s r) true true) (time : List ℝ) (thr : ℝ) :
    let bs := (List.range S.N).map S.bore
    let ns := (List.range S.N).map S.ns
    let rs := (List.range S.N).map S.rs
    temperatureSimilarities (fun t p => fls t alpha p true true) S dist (segmentList bs ns rs).length time thr = temperatureDetailed K bs ns rs time thr ∧
    ∀ f : Flow (segmentList bs ns rs).length, mixedSimilarities (fun t p => fls t alpha p true true) S dist f time thr = mixedDetailed K bs ns rs f time thr := by
  intro bs ns rs
  have hlen := sim_segmentList S hE.ratios
  have hn : (segmentList bs ns rs).length = S.first S.N := by rw [← sim_lengths_length, ← hlen, List.length_map]
  have hM : ∀ t, (S.factors (fun p => fls t alpha p true true) dist).isSome ∧ (detailed (K t) bs ns rs).isSome ∧ ∀ i < (segmentList bs ns rs).length, ∀ j < (segmentList bs ns rs).length,
      ((S.factors (fun p => fls t alpha p true true) dist).getD fun _ _ => 0) i j = ((detailed (K t) bs ns rs).getD fun _ _ => 0) i j := fun t => by
    obtain ⟨M, M', h1, h2, h3⟩ := S.similarities_eq_detailed t alpha hS hE hdist (hK t)
    rw [h1, show detailed (K t) bs ns rs = some M' from h2, hn]
    exact ⟨rfl, rfl, h3⟩
  have hs := fun t => iff_of_true (hM t).1 (hM t).2.1
  refine ⟨?_, fun f => ?_⟩
  · rw [temperatureDetailed_of]
    exact temperatureOf_congr (fun i _ => by rw [hlen]) hs (fun t => (hM t).2.2) time thr
  · rw [mixedDetailed_of]
    exact mixedOf_congr (fun i _ => by rw [hlen]) hs (fun t => (hM t).2.2) f time thr

end Verif.Gf
