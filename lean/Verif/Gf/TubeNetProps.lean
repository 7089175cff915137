import Verif.Gf.NetworkProps
import Verif.Pipe.DissProps

/-!
# Property C106 for the pipes of the library
-/

noncomputable section

namespace Verif.Gf

open Bore Sol Net FLS

/-- The edges of the segments that a pipe uses (`_segment_edges` in `pipes.py`). -/
def edgesAt (b : Borehole) (r : List ℝ) (j : ℕ) : ℝ := (b.edges r).getD j 0

theorem cumsum_getD (a : ℝ) (l : List ℝ) (j : ℕ) (hj : j ≤ l.length) : (a :: cumsumFrom a l)[j]? = some (a + (l.take j).sum) := by
  induction l generalizing a j with
  | nil =>
    have : j = 0 := by simpa using hj
    subst this
    simp
  | cons v l ih =>
    cases j with
    | zero => simp
    | succ j =>
      have := ih (a + v) j (by simpa using hj)
      rw [List.getElem?_cons_succ, cumsumFrom, this]
      simp [add_assoc]

theorem edgesAt_eq (b : Borehole) (r : List ℝ) {j : ℕ} (hj : j ≤ r.length) : edgesAt b r j = (r.take j).sum * b.H := by
  unfold edgesAt Borehole.edges
  rw [List.getD_eq_getElem?_getD, List.getElem?_map, cumsum_getD 0 r j hj]
  simp

/-- Positive ratios that add up to one give edges from the top to the bottom. -/
theorem edgesAt_edges {b : Borehole} {r : List ℝ} (hH : 0 < b.H) (hpos : ∀ ρ ∈ r, 0 < ρ) (hsum : r.sum = 1) : Pipe.Edges (edgesAt b r) r.length b.H := by
  have hne : r ≠ [] := by rintro rfl; simp at hsum
  refine ⟨List.length_pos_iff.mpr hne, ?_, ?_, fun i j hij hj => ?_⟩
  · rw [edgesAt_eq b r (Nat.zero_le _)]; simp
  · rw [edgesAt_eq b r le_rfl, List.take_length, hsum, one_mul]
  · rw [edgesAt_eq b r hj, edgesAt_eq b r (hij.trans hj)]
    refine mul_le_mul_of_nonneg_right ?_ hH.le
    obtain ⟨d, rfl⟩ := Nat.exists_eq_add_of_le hij
    rw [List.take_add, List.sum_append]
    have : 0 ≤ ((r.drop i).take d).sum := List.sum_nonneg fun x hx => (hpos x (List.mem_of_mem_drop (List.mem_of_mem_take hx))).le
    linarith

/-- Specification: at the flow rate `m` the coefficients are those of a single U-tube or a coaxial borehole in the borehole `b`. -/
def UTubeIn (b : Borehole) (p : (r : List ℝ) → Net.Pipe r.length) (m : ℝ) : Prop :=
  ∃ t : Pipe.UTube, t.Valid ∧ t.H = b.H ∧ (0 < m ∨ t.reversible = true) ∧ ∀ r, p r = t.netPipe (edgesAt b r) r.length

/-- Specification: at the flow rate `m` the coefficients are those of several U-tubes in parallel or in series in the borehole `b`. -/
def MultipleIn (b : Borehole) (p : (r : List ℝ) → Net.Pipe r.length) (m cp : ℝ) : Prop :=
  ∃ (k : ℕ) (c : Pipe.Multi.Config) (reversible : Bool) (Rd : Matrix (Pipe.Multi.P k) (Pipe.Multi.P k) ℝ) (e : Pipe.Multi.Eig k),
    Pipe.Multi.Circuit Rd ∧ Pipe.Multi.Flowing k reversible m cp ∧ e.Of (Pipe.Multi.odeA Rd (Pipe.Multi.multiple c k reversible m cp).mcp) ∧
    ∀ r, Pipe.Multi.Represents (Pipe.Multi.mkBore r.length (Pipe.Multi.multiple c k reversible m cp) Rd e (edgesAt b r) b.H) (edgesAt b r) (p r) m cp

theorem piped_thermal {b : Borehole} {p : (r : List ℝ) → Net.Pipe r.length} {m cp : ℝ} (hm : m ≠ 0) (hcp : 0 < cp) (hH : 0 < b.H) (h : UTubeIn b p m ∨ MultipleIn b p m cp)
    {r : List ℝ} (hpos : ∀ ρ ∈ r, 0 < ρ) (hsum : r.sum = 1) : (p r).Thermal m cp := by
  have hz := edgesAt_edges hH hpos hsum
  rcases h with ⟨t, hv, ht, hd, hp⟩ | ⟨k, c, rev, Rd, e, hR, hf, he, hp⟩
  · rw [hp r]
    exact Pipe.UTube.netPipe_thermal hv hm hcp (by rw [ht]; exact hz) hd
  · exact Pipe.Multi.multiple_thermal hR hf he hH hz (hp r)

/-- **C106.**  The g-function with a mixed inlet temperature of a field of vertical boreholes with single, multiple or coaxial U-tubes, connected in any accepted way, is found for all flow rates
that give every borehole a flow. -/
theorem tube_network_returns {bs : List Borehole} {ns : List ℕ} {rs : List (List ℝ)} {conn : Option (List ℤ)} {t : Topology} {alpha : ℝ} {K : ℝ → Bool → Borehole → Borehole → ℝ}
    {rb : ℝ} (ha : 0 < alpha) (hK : ∀ t s r, K t true s r = fls t alpha (pairOf s r) true true) (hU : Upright rb bs) (h : Splits bs ns rs) (hsp : Spaced rb bs) {time : List ℝ}
    (hpos : ∀ t ∈ time, 0 < t) (hs : time.Pairwise (· < ·)) {thr : ℝ} (hthr : 0 < thr) (ht : construct bs.length conn = .ok t)
    {pipe : Fin bs.length → (r : List ℝ) → Net.Pipe r.length} {ks : ℝ} (hks : 0 < ks) {m : List ℝ} {cp : ℝ} (hcp : 0 < cp) {f : Formatted} (hf : format t m [cp] = .ok f)
    (hflow : ∀ i : Fin bs.length, mBore t f i ≠ 0) (hp : ∀ i : Fin bs.length, UTubeIn bs[i] (pipe i) (mBore t f i) ∨ MultipleIn bs[i] (pipe i) (mBore t f i) cp) :
    ∃ out, mixedNetwork K bs ns rs conn pipe ks m cp time thr = some out := by
  have hl : rs.length = bs.length := by rw [← h.consistent.segs, ← h.consistent.ratios, List.length_map]
  refine mixed_network_returns ha hK hU h hsp hpos hs hthr ht hks hcp hf hflow fun i => ?_
  have hi : (i : ℕ) < rs.length := by have := i.isLt; omega
  have hr : rs.getD i [] ∈ rs := by
    rw [List.getD_eq_getElem _ _ hi]; exact List.getElem_mem _
  exact piped_thermal (hflow i) hcp (hU.H _ (List.getElem_mem _)) (hp i) (h.pos _ hr) (h.sum _ hr)

/-! ### A concrete case -/

theorem multipleIn_exists (b : Borehole) (hH : 0 < b.H) {k : ℕ} {Rd : Matrix (Pipe.Multi.P k) (Pipe.Multi.P k) ℝ} (hR : Pipe.Multi.Circuit Rd) (c : Pipe.Multi.Config) {reversible : Bool}
    {m cp : ℝ} (hf : Pipe.Multi.Flowing k reversible m cp) : ∃ p : (r : List ℝ) → Net.Pipe r.length, MultipleIn b p m cp := by
  obtain ⟨e, he⟩ := Pipe.Multi.eig_exists hR (Pipe.Multi.multiple c k reversible m cp).mcp
  choose p hp using fun r : List ℝ => Pipe.Multi.represents_exists (k := r.length) (zu := edgesAt b r) hR hf he hH
  exact ⟨p, k, c, reversible, Rd, e, hR, hf, he, hp⟩

/-- Two boreholes in series with reversed flow: a single U-tube, and two U-tubes in series. -/
example : ∃ pipe out, mixedNetwork lineKernel fieldA [2, 1] [[1 / 4, 3 / 4], [1]] (some [-1, 0]) pipe 2 [-3] 4 [10 ^ 3, 10 ^ 6, 10 ^ 9] (10 ^ 4) = some out := by
  obtain ⟨t, htd⟩ : ∃ t : Topology, t = ⟨2, [-1, 0], 1, 1, [0], [1], [0, 0]⟩ := ⟨_, rfl⟩
  have ht : construct fieldA.length (some [-1, 0]) = .ok t := by rw [htd]; rfl
  obtain ⟨f, hfd⟩ : ∃ f : Formatted, f = ⟨[-3], true, 4⟩ := ⟨_, rfl⟩
  have hf : format t [-3] [4] = .ok f := by
    rw [htd, hfd]; norm_num [Net.format, formatFlow, formatCp]
  have hm : ∀ i : Fin fieldA.length, mBore t f i = -3 := by
    intro i
    rw [htd, hfd]
    have : (i : ℕ) < 2 := i.isLt
    interval_cases h : (i : ℕ) <;> rfl
  obtain ⟨p1, hp1⟩ := multipleIn_exists ⟨150, 2, 1 / 10, 5, 0, 0, 0⟩ (by norm_num) (Pipe.Multi.sample_circuit 2) .series (reversible := true) (m := -3) (cp := 4)
    ⟨by norm_num, by norm_num, by norm_num, Or.inr rfl⟩
  obtain ⟨p0, hp0⟩ : ∃ p0 : (r : List ℝ) → Net.Pipe r.length, p0 = fun r => (Pipe.UTube.sample true).netPipe (edgesAt ⟨100, 4, 1 / 10, 0, 0, 0, 0⟩ r) r.length := ⟨_, rfl⟩
  refine ⟨fun i => if (i : ℕ) = 0 then p0 else p1, tube_network_returns (alpha := 1 / 10 ^ 6) (K := lineKernel) (by norm_num) (fun _ _ _ => rfl) fieldA_upright fieldA_splits fieldA_spaced
    (by simp) (by simp; norm_num) (by norm_num) ht (by norm_num) (by norm_num) hf (fun i => by rw [hm i]; norm_num) fun i => ?_⟩
  rw [hm i]
  have hi : i = (0 : Fin 2) ∨ i = (1 : Fin 2) := by
    have : (i : ℕ) < 2 := i.isLt
    rcases i with ⟨i, hi⟩
    interval_cases i
    · exact Or.inl rfl
    · exact Or.inr rfl
  rcases hi with rfl | rfl
  · refine Or.inl ⟨Pipe.UTube.sample true, Pipe.UTube.sample_valid true, rfl, Or.inr rfl, fun r => ?_⟩
    show p0 r = _
    rw [hp0]
    rfl
  · exact Or.inr hp1

end Verif.Gf
