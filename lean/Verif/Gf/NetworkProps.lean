import Verif.Gf.NetworkModel
import Verif.Gf.TempProps
import Verif.Net.ThermalProps

/-!
# Property C106: the g-function of a network with a mixed inlet temperature is always found
-/

noncomputable section

namespace Verif.Gf

open Bore Sol Net FLS

/-! ### Places of the segments -/

theorem segPlace_val {n N : ℕ} {ns : Fin n → ℕ} (h : ∑ i, ns i = N) (s : SegIdx ns) : (segPlace h s : ℕ) = ∑ i : Fin s.1, ns (Fin.castLE s.1.2.le i) + s.2 := by
  unfold segPlace
  exact finSigmaFinEquiv_apply s

theorem take_lengths (rs : List (List ℝ)) (k : ℕ) : ∑ i : Fin k, (rs.getD i []).length = ((rs.take k).map List.length).sum := by
  induction k generalizing rs with
  | zero => simp
  | succ k ih =>
    rw [Fin.sum_univ_succ]
    cases rs with
    | nil => simp
    | cons r rs => simpa using ih rs

variable {bs : List Borehole} {ns : List ℕ} {rs : List (List ℝ)}

theorem segments_total (h : Consistent bs ns rs) : ∑ i : Fin bs.length, (rs.getD i []).length = (segmentList bs ns rs).length := by
  rw [take_lengths, segmentList_length h, ← h.ratios, List.take_of_length_le]
  have h1 := h.segs
  rw [← h.ratios, List.length_map] at h1
  omega

/-- The coefficients of the segment `a` of the borehole `i` of the network go with the segment `a` of the borehole `i` of the solver. -/
theorem segPlace_segment (h : Consistent bs ns rs) (i : Fin bs.length) (a : Fin (rs.getD i []).length) :
    (bs[i].segments (rs.getD i []))[(a : ℕ)]? = some ((segmentList bs ns rs)[segPlace (ns := fun i : Fin bs.length => (rs.getD i []).length) (segments_total h) ⟨i, a⟩]) := by
  have hl : rs.length = bs.length := by rw [← h.segs, ← h.ratios, List.length_map]
  have hir : (i : ℕ) < rs.length := by have := i.isLt; omega
  have hr : rs[(i : ℕ)]? = some (rs.getD i []) := by rw [List.getD_eq_getElem?_getD, List.getElem?_eq_getElem hir, Option.getD_some]
  have hn : ns[(i : ℕ)]? = some (rs.getD i []).length := by rw [← h.ratios, List.getElem?_map, hr]; rfl
  have hb : bs[(i : ℕ)]? = some bs[i] := List.getElem?_eq_getElem i.isLt
  rw [← segmentList_get h hb hr hn a.isLt]
  have hv := segPlace_val (ns := fun i : Fin bs.length => (rs.getD i []).length) (segments_total h) ⟨i, a⟩
  have hv' : (segPlace (ns := fun i : Fin bs.length => (rs.getD i []).length) (segments_total h) ⟨i, a⟩ : ℕ) = i0 ns i + a := by
    rw [hv]
    have := take_lengths rs i
    unfold i0
    rw [← h.ratios, ← List.map_take, ← this]
    rfl
  rw [← hv']
  exact List.getElem?_eq_getElem _

/-! ### The network is passive -/

variable {n N : ℕ} {cs : Fin n → ℕ} {conn : Option (List ℤ)} {t : Topology}

theorem netFlow_passive (hlen : ∑ i, cs i = N) (ht : construct n conn = .ok t) (p : (i : Fin n) → Net.Pipe (cs i)) (f : Formatted) (hp : ∀ i, (p i).Thermal (mBore t f i) f.cp)
    (hcp : 0 < f.cp) (hflow : ∀ i : Fin n, mBore t f i ≠ 0) {ki : Coef (Fin n) cs} (hki : netInlet t p f = some ki) (mcp R ks : ℝ) (Hb : Fin N → ℝ) :
    Passive (netFlow hlen (boreHeat t p f ki) mcp R ks Hb) fun _ => 1 := by
  obtain ⟨h1, h2, s, h3⟩ := network_passive ht p f hp hcp hflow hki
  refine ⟨fun a => ?_, fun θ => ?_, segPlace hlen s, ?_⟩
  · rw [← h1 ((segPlace hlen).symm a), ← (segPlace hlen).symm.sum_comp]
    rfl
  · refine (h2 fun s => θ (segPlace hlen s)).trans_eq ?_
    rw [← (segPlace hlen).symm.sum_comp]
    refine Finset.sum_congr rfl fun a _ => ?_
    rw [← (segPlace hlen).symm.sum_comp, Equiv.apply_symm_apply, one_mul]
    congr 1
    refine Finset.sum_congr rfl fun b _ => ?_
    rw [Equiv.apply_symm_apply]
    rfl
  · show (boreHeat t p f ki).aIn ((segPlace hlen).symm (segPlace hlen s)) ≠ 0
    rwa [Equiv.symm_apply_apply]

theorem fieldResistance_some (ht : construct n conn = .ok t) (p : Fin n → Net.Pipe 1) (f : Formatted) (Htot : ℝ) : ∃ R, fieldResistance t p f Htot = some R := by
  obtain ⟨ki, ko, h1, h2, -⟩ := network_temperatures ht p f
  exact ⟨_, by unfold fieldResistance; rw [h1, h2]⟩

/-- **C106** (g-functions).  For vertical boreholes that are not too close, connected in any accepted way, with any pipes that never move heat from cold to hot, and with a
flow in every borehole, the g-function with a mixed inlet temperature is found: no system of equations of the network or of the solver is singular. -/
theorem mixed_network_returns {alpha : ℝ} {K : ℝ → Bool → Borehole → Borehole → ℝ} {rb : ℝ} (ha : 0 < alpha) (hK : ∀ t s r, K t true s r = fls t alpha (pairOf s r) true true)
    (hU : Upright rb bs) (h : Splits bs ns rs) (hsp : Spaced rb bs) {time : List ℝ} (hpos : ∀ t ∈ time, 0 < t) (hs : time.Pairwise (· < ·)) {thr : ℝ} (hthr : 0 < thr)
    (ht : construct bs.length conn = .ok t) {pipe : Fin bs.length → (r : List ℝ) → Net.Pipe r.length} {ks : ℝ} (hks : 0 < ks) {m : List ℝ} {cp : ℝ} (hcp : 0 < cp) {f : Formatted}
    (hf : format t m [cp] = .ok f) (hflow : ∀ i : Fin bs.length, mBore t f i ≠ 0) (hp : ∀ i, (pipe i (rs.getD i [])).Thermal (mBore t f i) cp) :
    ∃ out, mixedNetwork K bs ns rs conn pipe ks m cp time thr = some out := by
  have hfc : f.cp = cp := by
    unfold Net.format at hf
    cases h1 : formatFlow t.nInlets m with
    | error e => rw [h1] at hf; cases hf
    | ok mIn =>
      rw [h1] at hf
      dsimp only [formatCp] at hf
      split_ifs at hf <;> cases hf <;> rfl
  obtain ⟨ki, ko, hki, -, -⟩ := network_temperatures ht (fun i => pipe i (rs.getD i [])) f
  obtain ⟨R, hR⟩ := fieldResistance_some ht (fun i => pipe i [1]) f (bs.map Borehole.H).sum
  have hpas := netFlow_passive (segments_total h.consistent) ht (fun i => pipe i (rs.getD i [])) f (fun i => by rw [hfc]; exact hp i) (by rw [hfc]; exact hcp) hflow hki
    ((m.map fun a => |a| * cp).sum) R ks (segmentLengths bs ns rs)
  obtain ⟨out, hout⟩ := mixed_returns ha hK hU h hsp hpos hs hthr hpas hks rfl
  refine ⟨out, ?_⟩
  unfold mixedNetwork networkFlow
  rw [ht]
  dsimp only
  rw [hf]
  dsimp only
  rw [hki, hR]
  dsimp only
  rw [dif_pos (segments_total h.consistent)]
  exact hout

end Verif.Gf
