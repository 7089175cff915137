import Verif.Net.EquivModel
import Verif.Net.FlowProps

/-!
# Property C53: the equivalent network
-/

noncomputable section

namespace Verif.Net

open Matrix

variable {n : ℕ} {ns : Fin n → ℕ} {t : Topology}

/-- The equivalent network has the topology of a network without connectivity list. -/
theorem eqConstruct_eq (hn : 0 < n) (h : eqConstruct n = .ok t) : construct n none = .ok t := by
  obtain ⟨t', ht', -⟩ := construct_default n hn
  have : eqConstruct n = .ok t' := by
    have h2 := ht'
    unfold construct at h2
    simp only [Option.getD_none] at h2
    cases hv : verify n (List.replicate n (-1)) with
    | error e => rw [hv] at h2; simp at h2
    | ok u => rw [hv] at h2; exact h2
  rw [this] at h
  simp only [Except.ok.injEq] at h
  rw [← h]; exact ht'

theorem eqConstruct_ok (hn : 0 < n) : ∃ t, eqConstruct n = .ok t := by
  obtain ⟨t', ht', -⟩ := construct_default n hn
  refine ⟨t', ?_⟩
  unfold construct at ht'
  simp only [Option.getD_none] at ht'
  cases hv : verify n (List.replicate n (-1)) with
  | error e => rw [hv] at ht'; simp at ht'
  | ok u => rw [hv] at ht'; exact ht'

theorem parallel_fedBy (h : construct n none = .ok t) (f : Formatted) (i j : ℕ) : ¬ FedBy t f i j := by
  obtain ⟨-, hc, -⟩ := construct_ok h
  simp only [Option.getD_none] at hc
  intro hf
  unfold FedBy at hf
  rw [hc] at hf
  have key : ∀ a b : ℕ, (List.replicate n (-1 : ℤ))[a]? ≠ some (b : ℤ) := by
    intro a b hab
    have := List.eq_of_mem_replicate (List.mem_of_getElem? hab)
    omega
  split_ifs at hf
  · exact key _ _ hf
  · exact key _ _ hf

theorem parallel_lists (hn : 0 < n) (h : construct n none = .ok t) :
    t.n = n ∧ t.nInlets = n ∧ t.iInlets = List.range n ∧ t.iOutlets = List.range n ∧ ∀ f, flowOutlets t f = List.range n := by
  obtain ⟨t', ht', h1, h2, h3⟩ := construct_default n hn
  have : t' = t := by rw [ht'] at h; exact Except.ok.inj h
  subst this
  refine ⟨(construct_ok h).1, h1, h2, h3, ?_⟩
  intro f
  unfold flowOutlets
  split_ifs
  · exact h2
  · exact h3

theorem parallel_mBore (hn : 0 < n) (h : construct n none = .ok t) (f : Formatted) (v : ℝ)
    (hm : f.mIn = List.replicate n v) (i : Fin n) : mBore t f i = v := by
  obtain ⟨-, -, -, -, -, h6, -, -, -, hc⟩ := construct_ok h
  obtain ⟨d, r, k, -, hk, hki⟩ := hc i i.2
  have hlt := (List.getElem?_eq_some_iff.mp hk).1
  rw [← h6, (parallel_lists hn h).2.1] at hlt
  unfold mBore
  rw [hm, List.getD_eq_getElem?_getD (l := t.iCircuit), hki]
  simp only [Option.getD_some]
  rw [List.getD_eq_getElem _ _ (by simpa using hlt), List.getElem_replicate]

/-- All boreholes of a parallel network receive the network inlet temperature. -/
theorem parallel_temps (h : construct n none = .ok t) (p : (i : Fin n) → Pipe (ns i)) (f : Formatted)
    (ki ko : Coef (Fin n) ns) (hki : netInlet t p f = some ki) (hko : netOutlet t p f = some ko)
    (Tin : ℝ) (Tb : SegIdx ns → ℝ) (i : Fin n) :
    ki.eval Tin Tb i = Tin ∧
    ko.eval Tin Tb i = boreA t p f i * Tin + ∑ s, boreB t p f i s * Tb ⟨i, s⟩ := by
  obtain ⟨ki', ko', h1, h2, hs⟩ := network_temperatures h p f
  rw [hki] at h1; rw [hko] at h2
  simp only [Option.some.injEq] at h1 h2
  subst h1; subst h2
  obtain ⟨hsol, -⟩ := hs Tin Tb
  have hx := hsol.inlet i fun j => parallel_fedBy h f i j
  exact ⟨hx, by rw [hsol.model i, hx]⟩

theorem eqHeat_eval (w : List ℕ) (k : Coef (Fin n) ns) (Tin : ℝ) (Tb : SegIdx ns → ℝ) :
    (eqHeat w k).eval Tin Tb () = ∑ i : Fin n, (w.getD i 0 : ℝ) * k.eval Tin Tb i := by
  simp only [Coef.eval, eqHeat, Matrix.mulVec, dotProduct, mul_add, Finset.sum_add_distrib, Finset.mul_sum, Finset.sum_mul]
  congr 1
  · exact Finset.sum_congr rfl fun i _ => by ring
  · rw [Finset.sum_comm]
    exact Finset.sum_congr rfl fun i _ => Finset.sum_congr rfl fun s _ => by ring

theorem findIdx_range (i : ℕ) (hi : i < n) : (List.range n).findIdx? (· = i) = some i := by
  rw [List.findIdx?_eq_some_iff_getElem]
  refine ⟨by simpa using hi, by simp, ?_⟩
  intro j hj
  simp only [List.getElem_range, decide_eq_true_eq]
  omega

theorem zip_sum (v : ℝ) (w : List ℕ) : (List.zipWith (fun (a : ℝ) (b : ℕ) => |a| * b) (List.replicate w.length v) w).sum
    = |v| * (w.sum : ℕ) := by
  induction w with
  | nil => simp
  | cons a l ih =>
    rw [List.length_cons, List.replicate_succ, List.zipWith_cons_cons, List.sum_cons, ih, List.sum_cons]
    push_cast; ring

/-- The mixing weight of a group is its share of the boreholes. -/
theorem eqMixing_eq (w : List ℕ) (v : ℝ) (hv : v ≠ 0) (i : ℕ) (hi : i < w.length) :
    eqMixing (List.range w.length) (List.replicate w.length v) w i = (w.getD i 0 : ℝ) / (w.sum : ℕ) := by
  unfold eqMixing
  rw [findIdx_range i hi]
  simp only
  rw [zip_sum]
  have hlen : i < (List.zipWith (fun (a : ℝ) (b : ℕ) => |a| * b) (List.replicate w.length v) w).length := by
    simpa using hi
  rw [List.getD_eq_getElem _ _ hlen, List.getD_eq_getElem _ _ hi, List.getElem_zipWith, List.getElem_replicate]
  have : |v| ≠ 0 := abs_ne_zero.mpr hv
  rw [mul_div_mul_left _ _ this]

theorem getD_sum (w : List ℕ) (hw : w.length = n) : ∑ i : Fin n, w.getD i 0 = w.sum := by
  subst hw
  rw [← List.sum_ofFn]
  congr 1
  apply List.ext_getElem
  · simp
  · intro k h1 h2
    simp

/-- **C53** (mass).  The flow rates of all represented boreholes add up to the network flow rate; the mixing
weights are non-negative and sum to one. -/
theorem equivalent_mass_flow (hn : 0 < n) (h : eqConstruct n = .ok t) (w : List ℕ) (hw : w.length = n)
    (hpos : ∀ a ∈ w, 0 < a) (m cp : ℝ) :
    (∑ i : Fin n, (w.getD i 0 : ℝ) * mBore t (eqFormat t w m cp) i = m) ∧
    (m ≠ 0 → (∀ i : Fin n, 0 ≤ eqMixing (flowOutlets t (eqFormat t w m cp)) (eqFormat t w m cp).mIn w i) ∧
      ∑ i : Fin n, eqMixing (flowOutlets t (eqFormat t w m cp)) (eqFormat t w m cp).mIn w i = 1) := by
  have hc := eqConstruct_eq hn h
  obtain ⟨htn, -, -, -, hout⟩ := parallel_lists hn hc
  have hS : (0 : ℝ) < (w.sum : ℕ) := by
    have : 0 < w.sum := by
      cases w with
      | nil => simp at hw; omega
      | cons a l => have := hpos a List.mem_cons_self; simp only [List.sum_cons]; omega
    exact_mod_cast this
  have hsum : ∑ i : Fin n, (w.getD i 0 : ℝ) = (w.sum : ℕ) := by
    rw [← getD_sum w hw]; push_cast; rfl
  have hmB : ∀ i : Fin n, mBore t (eqFormat t w m cp) i = m / (w.sum : ℕ) := fun i =>
    parallel_mBore hn hc _ _ (by simp [eqFormat, htn]) i
  refine ⟨?_, fun hm => ?_⟩
  · simp only [hmB]
    rw [← Finset.sum_mul, hsum]
    field_simp
  · have hv : m / (w.sum : ℕ) ≠ 0 := div_ne_zero hm hS.ne'
    have hmix : ∀ i : Fin n, eqMixing (flowOutlets t (eqFormat t w m cp)) (eqFormat t w m cp).mIn w i
        = (w.getD i 0 : ℝ) / (w.sum : ℕ) := by
      intro i
      have hin : (eqFormat t w m cp).mIn = List.replicate w.length (m / (w.sum : ℕ)) := by simp [eqFormat, htn, hw]
      have hout2 : flowOutlets t (eqFormat t w m cp) = List.range w.length := by rw [hout, hw]
      rw [hout2, hin]
      exact eqMixing_eq w _ hv i (by rw [hw]; exact i.2)
    simp only [hmix]
    refine ⟨fun i => by positivity, ?_⟩
    rw [← Finset.sum_div, hsum, div_self hS.ne']

/-- **C53** (length).  The total length is that of all the boreholes represented. -/
theorem equivalent_length (w : List ℕ) (H : List ℝ) : eqHtot w H = (List.zipWith (fun (h : ℝ) (b : ℕ) => List.replicate b h) H w).flatten.sum := by
  unfold eqHtot
  induction H generalizing w with
  | nil => simp
  | cons h H ih =>
    cases w with
    | nil => simp
    | cons b w =>
      simp only [List.zipWith_cons_cons, List.sum_cons, List.flatten_cons, List.sum_append, ih, List.sum_replicate, nsmul_eq_mul]
      ring

/-- Three boreholes of 100 m and one of 80 m. -/
example : eqHtot [3, 1] [100, 80] = 380 := by rw [equivalent_length]; norm_num [List.replicate]

/-- **C53** (exactness).  Compare an equivalent network with a network of all represented boreholes in
parallel: `g` maps each of the `N` boreholes to its group, `w` counts the members of the groups.  If
the members of a group have the model and the wall temperatures of the group, then the network
outlet temperatures and the network heat extraction rates are equal. -/
theorem equivalent_network_exact {N : ℕ} (hn : 0 < n) (hN : 0 < N) (h : eqConstruct n = .ok t)
    {u : Topology} (hu : construct N none = .ok u) (g : Fin N → Fin n) (w : List ℕ) (hw : w.length = n)
    (hg : ∀ k : Fin n, w.getD k 0 = (Finset.univ.filter fun i => g i = k).card)
    (p : (k : Fin n) → Pipe (ns k)) (m cp : ℝ) (hm : m ≠ 0) (F : Formatted) (hF : format u [m] [cp] = .ok F)
    (ki ko : Coef (Fin n) ns) (hki : netInlet t p (eqFormat t w m cp) = some ki)
    (hko : netOutlet t p (eqFormat t w m cp) = some ko)
    (Ki Ko : Coef (Fin N) fun i => ns (g i)) (hKi : netInlet u (fun i => p (g i)) F = some Ki)
    (hKo : netOutlet u (fun i => p (g i)) F = some Ko) (Tin : ℝ) (Tb : SegIdx ns → ℝ) :
    (netMixed (eqMixing (flowOutlets t (eqFormat t w m cp)) (eqFormat t w m cp).mIn w) ko).eval Tin Tb ()
      = (netMixed (mixing (flowOutlets u F) F.mIn) Ko).eval Tin (fun s => Tb ⟨g s.1, s.2⟩) () ∧
    (eqHeat w (fluidHeat t p (eqFormat t w m cp) ki)).eval Tin Tb ()
      = (netHeat (fluidHeat u (fun i => p (g i)) F Ki)).eval Tin (fun s => Tb ⟨g s.1, s.2⟩) () := by
  classical
  have hc := eqConstruct_eq hn h
  obtain ⟨htn, -, -, -, hout⟩ := parallel_lists hn hc
  obtain ⟨hun, huI, -, -, hout'⟩ := parallel_lists hN hu
  have hcard : w.sum = N := by
    rw [← getD_sum w hw, Finset.sum_congr rfl fun k _ => hg k]
    have := Finset.card_eq_sum_card_fiberwise (f := g) (s := Finset.univ) (t := Finset.univ) (fun x _ => Finset.mem_univ _)
    rw [← this, Finset.card_univ, Fintype.card_fin]
  obtain ⟨hlen, -, -, hrep, -⟩ := format_ok hF
  have hrep := hrep m rfl
  rw [huI] at hrep
  have hcp : F.cp = cp := by
    unfold format at hF
    simp only [formatFlow, formatCp] at hF
    split_ifs at hF
    · simp only [Except.ok.injEq] at hF; rw [← hF]
    · simp only [Except.ok.injEq] at hF; rw [← hF]
  have hNR : (0 : ℝ) < N := by exact_mod_cast hN
  have hmB : ∀ k : Fin n, mBore t (eqFormat t w m cp) k = m / N := fun k => by
    rw [parallel_mBore hn hc (eqFormat t w m cp) (m / (w.sum : ℕ)) (by simp [eqFormat, htn]) k, hcard]
  have hmB' : ∀ i : Fin N, mBore u F i = m / N := fun i => parallel_mBore hN hu F _ hrep i
  -- outlet temperatures
  have hy : ∀ i : Fin N, Ko.eval Tin (fun s => Tb ⟨g s.1, s.2⟩) i = ko.eval Tin Tb (g i) := by
    intro i
    rw [(parallel_temps hu _ F Ki Ko hKi hKo Tin _ i).2, (parallel_temps hc p _ ki ko hki hko Tin Tb (g i)).2]
    simp only [boreA, boreB, hmB, hmB', hcp]
    rfl
  have hfib : ∀ q : Fin n → ℝ, ∑ i : Fin N, q (g i) = ∑ k : Fin n, (w.getD k 0 : ℝ) * q k := by
    intro q
    rw [← Finset.sum_fiberwise_of_maps_to (t := Finset.univ) (g := g) (fun i _ => Finset.mem_univ _)]
    apply Finset.sum_congr rfl
    intro k _
    rw [hg k, Finset.sum_congr rfl fun i hi => by rw [(Finset.mem_filter.mp hi).2], Finset.sum_const, nsmul_eq_mul]
  have hv : m / (w.sum : ℕ) ≠ 0 := by
    rw [hcard]; exact div_ne_zero hm hNR.ne'
  have hmix : ∀ k : Fin n, eqMixing (flowOutlets t (eqFormat t w m cp)) (eqFormat t w m cp).mIn w k
      = (w.getD k 0 : ℝ) / N := by
    intro k
    have hin : (eqFormat t w m cp).mIn = List.replicate w.length (m / (w.sum : ℕ)) := by simp [eqFormat, htn, hw]
    have hout2 : flowOutlets t (eqFormat t w m cp) = List.range w.length := by rw [hout, hw]
    rw [hout2, hin, eqMixing_eq w _ hv k (by rw [hw]; exact k.2), hcard]
  have hmix' : ∀ i : Fin N, mixing (flowOutlets u F) F.mIn i = 1 / N := by
    intro i
    unfold mixing
    rw [hout', findIdx_range i i.2]
    simp only
    rw [hrep, sum_abs_replicate N hN m, List.getD_eq_getElem _ _ (by simp), List.getElem_replicate, abs_div,
      abs_of_pos hNR]
    have : |m| ≠ 0 := abs_ne_zero.mpr hm
    field_simp
  refine ⟨?_, ?_⟩
  · rw [mixed_eval, mixed_eval]
    simp only [hmix, hmix', hy]
    rw [← Finset.mul_sum, hfib fun k => ko.eval Tin Tb k, Finset.mul_sum]
    exact Finset.sum_congr rfl fun k _ => by ring
  · rw [eqHeat_eval, netHeat_eval, ← hfib fun k => (fluidHeat t p (eqFormat t w m cp) ki).eval Tin Tb k]
    apply Finset.sum_congr rfl
    intro i _
    rw [(network_borehole_heat _ F Ki Tin _).1 i, (network_borehole_heat p _ ki Tin Tb).1 (g i),
      (parallel_temps hu _ F Ki Ko hKi hKo Tin _ i).1, (parallel_temps hc p _ ki ko hki hko Tin Tb (g i)).1]
    simp only [boreA, boreB, hmB, hmB', hcp]
    rfl

/-- Non-vacuity: two groups of one and two boreholes represent three boreholes, and all coefficients exist. -/
example : ∃ (t u : Topology) (F : Formatted), eqConstruct 2 = .ok t ∧ construct 3 none = .ok u ∧
    format u [6] [4] = .ok F ∧
    (∀ k : Fin 2, [1, 2].getD k 0 = (Finset.univ.filter fun i : Fin 3 => (![0, 1, 1] : Fin 3 → Fin 2) i = k).card) ∧
    mBore t (eqFormat t [1, 2] 6 4) 1 = 2 ∧ (netInlet t (fun _ : Fin 2 => wallPipe) (eqFormat t [1, 2] 6 4)).isSome := by
  obtain ⟨t, ht⟩ := eqConstruct_ok (n := 2) (by norm_num)
  obtain ⟨u, hu, hu1, -⟩ := construct_default 3 (by norm_num)
  have hc := eqConstruct_eq (by norm_num) ht
  obtain ⟨htn, -⟩ := parallel_lists (by norm_num) hc
  obtain ⟨ki, ko, h1, -⟩ := network_temperatures hc (fun _ : Fin 2 => wallPipe) (eqFormat t [1, 2] 6 4)
  refine ⟨t, u, ⟨List.replicate 3 2, false, 4⟩, ht, hu, ?_, ?_, ?_, by rw [h1]; rfl⟩
  · simp [format, formatFlow, formatCp, hu1]
    norm_num
  · decide
  · have := parallel_mBore (by norm_num) hc (eqFormat t [1, 2] 6 4) 2 (by simp [eqFormat, htn]; norm_num) 1
    simpa using this

end Verif.Net
