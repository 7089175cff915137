import Verif.Net.TopoLemmas
import Mathlib.Data.Nat.Find
import Mathlib.Data.List.Chain

/-!
# Properties C32 and C33: accepted network topologies
-/

namespace Verif.Net

theorem pathLoop_of_walk {c : List ℤ} :
    ∀ (fuel : ℕ) (path : List ℤ) (i : ℤ), walk c fuel i = .ok () → ∃ p, pathLoop c fuel path i = .ok p := by
  intro fuel
  induction fuel with
  | zero =>
    intro path i h
    unfold walk at h
    unfold pathLoop
    by_cases hi : i = -1
    · rw [if_pos hi]; exact ⟨path, rfl⟩
    · rw [if_neg hi] at h
      cases hp : pyGet c i <;> rw [hp] at h <;> simp at h
  | succ f ih =>
    intro path i h
    unfold walk at h
    unfold pathLoop
    by_cases hi : i = -1
    · rw [if_pos hi]; exact ⟨path, rfl⟩
    · rw [if_neg hi] at h ⊢
      cases hp : pyGet c i with
      | error e => rw [hp] at h; simp at h
      | ok j => rw [hp] at h; exact ih _ j h

/-- A negative index counts from the end, as in Python; the first element has the index `-len(c)`. -/
theorem pyGet_neg (c : List ℤ) (k : ℕ) (h1 : 1 ≤ k) (v : ℤ) : pyGet c (-k) = .ok v ↔ k ≤ c.length ∧ c[c.length - k]? = some v := by
  unfold pyGet
  rw [if_neg (by omega)]
  by_cases hk : k ≤ c.length
  · rw [if_pos (by omega), show ((c.length : ℤ) + -(k : ℤ)).toNat = c.length - k by omega]
    cases c[c.length - k]? <;> simp [hk]
  · rw [if_neg (by omega)]
    simp [hk]

example : pyGet [5, 6, 7] (-3) = .ok 5 := (pyGet_neg [5, 6, 7] 3 (by norm_num) 5).mpr ⟨by simp, rfl⟩

theorem pyGet_ne_fuel (c : List ℤ) (i : ℤ) : pyGet c i ≠ .error .fuel := by
  unfold pyGet
  split_ifs
  · cases c[i.toNat]? <;> simp
  · cases c[(c.length + i).toNat]? <;> simp
  · simp

theorem walk_ne_fuel (c : List ℤ) : ∀ (f : ℕ) (i : ℤ), walk c f i ≠ .error .fuel := by
  intro f
  induction f with
  | zero =>
    intro i
    unfold walk
    split_ifs
    · simp
    · cases hp : pyGet c i with
      | error e =>
        have := pyGet_ne_fuel c i
        rw [hp] at this
        simpa using this
      | ok j => simp
  | succ f ih =>
    intro i
    unfold walk
    split_ifs
    · simp
    · cases hp : pyGet c i with
      | error e =>
        have := pyGet_ne_fuel c i
        rw [hp] at this
        simpa using this
      | ok j => exact ih j

theorem verifyLoop_ne_fuel (n : ℕ) (c : List ℤ) : ∀ l, verifyLoop n c l ≠ .error .fuel := by
  intro l
  induction l with
  | nil => simp [verifyLoop]
  | cons i l ih =>
    unfold verifyLoop
    split_ifs
    · simp
    · cases hw : walk c n i with
      | error e =>
        have := walk_ne_fuel c n i
        rw [hw] at this
        simpa using this
      | ok u => exact ih

theorem circuits_ne_fuel (n : ℕ) (c : List ℤ) (l : List ℕ)
    (h : ∀ i ∈ l, circuitOf n c i ≠ .error .fuel) : circuits n c l ≠ .error .fuel := by
  induction l with
  | nil => simp [circuits]
  | cons i l ih =>
    unfold circuits
    have h1 := h i List.mem_cons_self
    have h2 := ih fun j hj => h j (List.mem_cons_of_mem _ hj)
    cases hc : circuitOf n c i with
    | error e => rw [hc] at h1; simpa using h1
    | ok k =>
      cases hr : circuits n c l with
      | error e => rw [hr] at h2; simpa using h2
      | ok ks => simp

/-- **C32** (termination).  Constructing a network always ends, with a network or a Python
exception: no loop of the constructor exceeds the number of boreholes. -/
theorem construct_terminates (n : ℕ) (conn : Option (List ℤ)) : construct n conn ≠ .error .fuel := by
  unfold construct
  obtain ⟨c, hc⟩ : ∃ c, c = conn.getD (List.replicate n (-1)) := ⟨_, rfl⟩
  rw [← hc]
  dsimp only
  cases hv : verify n c with
  | error e =>
    have hvl := verifyLoop_ne_fuel n c c
    unfold verify at hv
    split_ifs at hv with h1
    · cases hv; simp
    · cases hm : pyMax c with
      | none => rw [hm] at hv; cases hv; simp
      | some m =>
        rw [hm] at hv
        simp only at hv
        split_ifs at hv with h2
        · cases hv; simp
        · rw [hv] at hvl; simpa using hvl
  | ok u =>
    obtain ⟨hlen, -, -, hw⟩ := (verify_ok_iff n c).mp hv
    simp only
    unfold findInletsOutlets
    have hcirc := circuits_ne_fuel n c (List.range n) (by
      intro i hi
      rw [List.mem_range] at hi
      unfold circuitOf pathToInlet
      have hget : c[i]? = some c[i] := List.getElem?_eq_getElem (by omega)
      rw [(pyGet_nat c i c[i]).mpr hget]
      obtain ⟨p, hp⟩ := pathLoop_of_walk n [(i : ℤ)] c[i] (hw _ (List.getElem_mem _)).2
      simp only [hp]
      cases p.getLast? with
      | none => simp
      | some r =>
        simp only [pyIndex]
        cases (inletList n c).findIdx? (fun b : ℕ => decide ((b : ℤ) = r)) <;> simp)
    cases hr : circuits n c (List.range n) with
    | error e => rw [hr] at hcirc; simpa using hcirc
    | ok ks =>
      simp only
      split_ifs <;> simp

theorem Valid.count {n : ℕ} {c : List ℤ} (h : Valid n c) (v : ℤ) (hv : v ≠ -1) : c.count v ≤ 1 := by
  by_contra hc
  have h2 : 2 ≤ c.count v := by omega
  obtain ⟨⟨i, hi⟩, ⟨j, hj⟩, hlt, h1, h2⟩ :=
    List.duplicate_iff_exists_distinct_get.mp (List.duplicate_iff_two_le_count.mpr h2)
  simp only [Fin.mk_lt_mk] at hlt
  simp only [List.get_eq_getElem] at h1 h2
  have hgi : c[i]? = some v := by rw [List.getElem?_eq_getElem hi, h1]
  have hgj : c[j]? = some v := by rw [List.getElem?_eq_getElem hj, h2]
  have := h.inj i j (h.len ▸ hi) (h.len ▸ hj) hlt.ne (by rw [hgi, hgj])
  rw [hgi] at this
  simp only [Option.some.injEq] at this
  exact hv this

theorem Valid.verify {n : ℕ} {c : List ℤ} (h : Valid n c) : verify n c = .ok () := by
  rw [verify_ok_iff]
  refine ⟨h.len, h.pos, ?_, ?_⟩
  · intro v hv
    rcases h.entries v hv with rfl | ⟨j, hj, rfl⟩
    · have := h.pos; omega
    · exact_mod_cast hj
  · intro v hv
    refine ⟨h.count v, ?_⟩
    rcases h.entries v hv with rfl | ⟨j, hj, rfl⟩
    · unfold walk; rw [if_pos rfl]
    · obtain ⟨d, r, hu⟩ := h.reach j hj
      exact walk_of_up hu n (by have := hu.depth_lt; rw [h.len] at this; exact this)

theorem Valid.counts {n : ℕ} {c : List ℤ} (h : Valid n c) : c.count (-1) = (outletList n c).length := by
  have h1 := outlet_count h.len (fun v hv => by
    rcases h.entries v hv with rfl | ⟨j, hj, rfl⟩
    · have := h.pos; omega
    · exact_mod_cast hj) (fun v _ => h.count v)
  have h2 := List.length_eq_length_filter_add (l := c) (fun v => decide (0 ≤ v))
  have h3 : (c.filter fun v => !decide (0 ≤ v)) = c.filter fun v => v = -1 := by
    apply List.filter_congr
    intro v hv
    rcases h.entries v hv with rfl | ⟨j, hj, rfl⟩
    · rfl
    · have e1 : ¬ ((j : ℤ) = -1) := by omega
      have e2 : (0 : ℤ) ≤ (j : ℤ) := by omega
      simp [e1]
  rw [h3, ← count_neg_one, h.len] at h2
  omega

theorem inletList_length {n : ℕ} {c : List ℤ} (hlen : c.length = n) :
    (inletList n c).length = c.count (-1) := by
  subst hlen
  rw [count_neg_one, inletList]
  have : c.filter (fun v => decide (v = -1)) = ((List.range c.length).map fun i => c[i]?.getD 0).filter
      (fun v => decide (v = -1)) := by
    congr 1
    apply List.ext_getElem
    · simp
    · intro i h1 h2
      simp [List.getElem?_eq_getElem h1]
  rw [this, List.filter_map, List.length_map]
  congr 1
  apply List.filter_congr
  intro i hi
  rw [List.mem_range] at hi
  simp [List.getElem?_eq_getElem hi]

/-- Everything the constructor establishes. -/
theorem construct_ok {n : ℕ} {conn : Option (List ℤ)} {t : Topology} (h : construct n conn = .ok t) :
    t.n = n ∧ t.c = conn.getD (List.replicate n (-1)) ∧ Valid n t.c ∧
    t.iInlets = inletList n t.c ∧ t.iOutlets = outletList n t.c ∧
    t.nInlets = t.iInlets.length ∧ t.nOutlets = t.iOutlets.length ∧ t.nInlets = t.nOutlets ∧
    t.iCircuit.length = n ∧
    ∀ i < n, ∃ d r k, Up t.c d i r ∧ t.iInlets[k]? = some r ∧ t.iCircuit[i]? = some k := by
  unfold construct at h
  obtain ⟨c, hc⟩ : ∃ c, c = conn.getD (List.replicate n (-1)) := ⟨_, rfl⟩
  rw [← hc] at h ⊢
  dsimp only at h
  cases hv : verify n c with
  | error e => rw [hv] at h; simp at h
  | ok u =>
    rw [hv] at h
    simp only at h
    unfold findInletsOutlets at h
    cases hr : circuits n c (List.range n) with
    | error e => rw [hr] at h; simp at h
    | ok ks =>
      rw [hr] at h
      simp only at h
      split_ifs at h with hcnt
      simp only [Except.ok.injEq] at h
      subst h
      dsimp only
      obtain ⟨hlen, hpos, hlt, hw⟩ := (verify_ok_iff n c).mp hv
      have hent := entries_of_counts hlen hlt (fun v hv => (hw v hv).1) (not_not.mp hcnt)
      have hreach : ∀ i < n, ∃ d r, Up c d i r := by
        intro i hi
        have hget : c[i]? = some c[i] := List.getElem?_eq_getElem (by omega)
        have hmem : c[i] ∈ c := List.getElem_mem _
        rcases hent _ hmem with h1 | ⟨j, hj, h1⟩
        · exact ⟨0, i, Up.inlet i (by rw [hget, h1])⟩
        · have hwj := (hw _ hmem).2
          rw [h1] at hwj
          obtain ⟨d, r, hu⟩ := up_of_walk (by rw [hlen]; exact hent) n j hwj
          exact ⟨d + 1, r, Up.step d i j r (by rw [hget, h1]) hu⟩
      have hvalid : Valid n c := by
        refine ⟨hpos, hlen, hent, ?_, hreach⟩
        intro i j hi hj hij heq
        by_contra hne
        have hgi : c[i]? = some c[i] := List.getElem?_eq_getElem (by omega)
        have hgj : c[j]? = some c[j] := List.getElem?_eq_getElem (by omega)
        rw [hgi, hgj, Option.some.injEq] at heq
        have hv1 : c[i] ≠ -1 := fun e => hne (by rw [hgi, e])
        have hcount := (hw c[i] (List.getElem_mem _)).1 hv1
        have : List.Duplicate c[i] c := by
          rw [List.duplicate_iff_exists_distinct_get]
          rcases Nat.lt_or_gt_of_ne hij with hlt | hlt
          · exact ⟨⟨i, by omega⟩, ⟨j, by omega⟩, hlt, rfl, heq⟩
          · exact ⟨⟨j, by omega⟩, ⟨i, by omega⟩, hlt, heq, rfl⟩
        have := List.duplicate_iff_two_le_count.mp this
        omega
      obtain ⟨hkl, hks⟩ := circuits_error _ _ hr
      refine ⟨rfl, rfl, hvalid, rfl, rfl, (inletList_length hlen).symm, rfl, not_not.mp hcnt,
        by simpa using hkl, ?_⟩
      intro i hi
      obtain ⟨d, r, hu⟩ := hreach i hi
      obtain ⟨k, hk1, hk2⟩ := circuitOf_of_up hlen hu
      obtain ⟨k', a, b⟩ := hks i (by simpa using hi)
      rw [List.getElem_range] at a
      rw [hk1] at a
      simp only [Except.ok.injEq] at a
      subst a
      exact ⟨d, r, k, hu, hk2, b⟩

/-- **C32.**  `Network(...)` accepts a connectivity list exactly if it is valid: one entry per
borehole (at least one), every entry is `-1` or the index of a borehole, no two boreholes
share an upstream borehole and going upstream always leads to the network inlet. -/
theorem construct_accepts_iff (n : ℕ) (c : List ℤ) :
    (∃ t, construct n (some c) = .ok t) ↔ Valid n c := by
  constructor
  · rintro ⟨t, ht⟩
    obtain ⟨-, h2, h3, -⟩ := construct_ok ht
    simp only [Option.getD_some] at h2
    rwa [h2] at h3
  · intro h
    unfold construct
    simp only [Option.getD_some]
    rw [h.verify]
    simp only
    unfold findInletsOutlets
    have hex : ∀ i, i < n → ∃ k, circuitOf n c i = .ok k := by
      intro i hi
      obtain ⟨d, r, hu⟩ := h.reach i hi
      obtain ⟨k, hk, -⟩ := circuitOf_of_up h.len hu
      exact ⟨k, hk⟩
    choose! g hg using hex
    rw [circuits_spec (List.range n) g fun i hi => hg i (List.mem_range.mp hi)]
    simp only
    rw [if_neg (not_not.mpr h.counts)]
    exact ⟨_, rfl⟩

/-- **C32** (default).  Without connectivity list, every non-empty set of boreholes is accepted,
each borehole being its own circuit. -/
theorem construct_default (n : ℕ) (hn : 0 < n) : ∃ t, construct n none = .ok t ∧
    t.nInlets = n ∧ t.iInlets = List.range n ∧ t.iOutlets = List.range n := by
  have hget : ∀ i < n, (List.replicate n (-1 : ℤ))[i]? = some (-1) := fun i hi => by
    rw [List.getElem?_replicate, if_pos hi]
  have hv : Valid n (List.replicate n (-1)) :=
    ⟨hn, List.length_replicate, fun v hv => Or.inl (List.eq_of_mem_replicate hv),
      fun i j hi _ _ _ => hget i hi, fun i hi => ⟨0, i, Up.inlet i (hget i hi)⟩⟩
  obtain ⟨t, ht⟩ := (construct_accepts_iff n _).mpr hv
  obtain ⟨-, h2, -, h4, h5, h6, -⟩ := construct_ok ht
  simp only [Option.getD_some] at h2
  have hin : inletList n (List.replicate n (-1)) = List.range n := by
    rw [inletList, List.filter_eq_self]
    intro i hi
    rw [hget i (List.mem_range.mp hi)]
    simp
  have hout : outletList n (List.replicate n (-1)) = List.range n := by
    rw [outletList, List.filter_eq_self]
    intro i _
    simp only [decide_eq_true_eq]
    intro hm
    have := List.eq_of_mem_replicate hm
    omega
  refine ⟨t, ht, ?_, ?_, ?_⟩
  · rw [h6, h4, h2, hin, List.length_range]
  · rw [h4, h2, hin]
  · rw [h5, h2, hout]

/-- Boreholes at the same depth of a circuit are the same borehole. -/
theorem Valid.up_inj {n : ℕ} {c : List ℤ} (hv : Valid n c) : ∀ {d i j r : ℕ}, Up c d i r → Up c d j r → i = j := by
  intro d
  induction d with
  | zero =>
    intro i j r h1 h2
    cases h1 with
    | inlet _ _ => cases h2 with
      | inlet _ _ => rfl
  | succ d ih =>
    intro i j r h1 h2
    have l1 := h1.lt
    have l2 := h2.lt
    cases h1 with
    | step _ _ a _ ha h1 =>
      cases h2 with
      | step _ _ b _ hb h2 =>
        have hab := ih h1 h2
        subst hab
        by_contra hne
        have := hv.inj i j (hv.len ▸ l1) (hv.len ▸ l2) hne (by rw [ha, hb])
        rw [ha] at this
        simp only [Option.some.injEq] at this
        omega

/-- **C33.**  In an accepted network there are as many outlets as inlets, every borehole is in
exactly one circuit, and the boreholes of each circuit form a chain: it starts at the inlet
borehole of the circuit, each next borehole is fed by the previous one, and it ends at the
only outlet borehole of that circuit. -/
theorem circuits_decompose (n : ℕ) (conn : Option (List ℤ)) (t : Topology) (h : construct n conn = .ok t) :
    t.nInlets = t.nOutlets ∧ t.iInlets.length = t.nInlets ∧ t.iOutlets.length = t.nOutlets ∧
    t.iInlets.Nodup ∧ t.iOutlets.Nodup ∧
    (∀ i < n, ∃ k < t.nInlets, t.iCircuit[i]? = some k) ∧
    ∀ k < t.nInlets, ∃ chain : List ℕ, chain.Nodup ∧
      (∀ i, i ∈ chain ↔ i < n ∧ t.iCircuit[i]? = some k) ∧
      chain.IsChain (fun a b : ℕ => t.c[b]? = some (a : ℤ)) ∧
      (∃ a, chain.head? = some a ∧ t.iInlets[k]? = some a ∧ t.c[a]? = some (-1)) ∧
      ∃ o, chain.getLast? = some o ∧ o ∈ t.iOutlets ∧
        ∀ o' ∈ t.iOutlets, t.iCircuit[o']? = some k → o' = o := by
  obtain ⟨-, -, hv, hin, hout, hni, hno, hnio, hcl, hcirc⟩ := construct_ok h
  refine ⟨hnio, hni.symm, hno.symm, by rw [hin]; exact inletList_nodup _ _,
    by rw [hout]; exact outletList_nodup _ _, ?_, ?_⟩
  · intro i hi
    obtain ⟨d, r, k, -, hk, hc⟩ := hcirc i hi
    exact ⟨k, by rw [hni]; exact (List.getElem?_eq_some_iff.mp hk).1, hc⟩
  · intro k hk
    rw [hni] at hk
    obtain ⟨r, hr⟩ : ∃ r, r = t.iInlets[k] := ⟨_, rfl⟩
    have hrk : t.iInlets[k]? = some r := by rw [List.getElem?_eq_getElem hk, hr]
    have hrm : r ∈ inletList n t.c := by rw [← hin, hr]; exact List.getElem_mem _
    obtain ⟨hrn, hrc⟩ := (inletList_mem r).mp hrm
    have hnd : t.iInlets.Nodup := by rw [hin]; exact inletList_nodup _ _
    -- circuit `k` is the set of boreholes with root `r`
    have hmem : ∀ i, (i < n ∧ t.iCircuit[i]? = some k) ↔ ∃ d, Up t.c d i r := by
      intro i
      constructor
      · rintro ⟨hi, hc⟩
        obtain ⟨d, r', k', hu, hk', hc'⟩ := hcirc i hi
        rw [hc] at hc'
        simp only [Option.some.injEq] at hc'
        subst hc'
        rw [hrk] at hk'
        simp only [Option.some.injEq] at hk'
        subst hk'
        exact ⟨d, hu⟩
      · rintro ⟨d, hu⟩
        have hi : i < n := hv.len ▸ hu.lt
        obtain ⟨d', r', k', hu', hk', hc'⟩ := hcirc i hi
        obtain ⟨-, rfl⟩ := hu.det hu'
        refine ⟨hi, ?_⟩
        rw [hc']
        have h1 := (List.getElem?_eq_some_iff.mp hk')
        obtain ⟨hlt, he⟩ := h1
        have : k' = k := (List.Nodup.getElem_inj_iff hnd (hi := hlt) (hj := hk)).mp (by rw [he, hr])
        rw [this]
    -- the deepest borehole
    classical
    obtain ⟨m, hm1, hm2⟩ : ∃ m, (∃ i, Up t.c m i r) ∧ ∀ d i, Up t.c d i r → d ≤ m := by
      refine ⟨Nat.findGreatest (fun d => ∃ i, Up t.c d i r) n, ?_, ?_⟩
      · exact Nat.findGreatest_spec (P := fun d => ∃ i, Up t.c d i r) (Nat.zero_le n) ⟨r, Up.inlet r hrc⟩
      · intro d i hu
        apply Nat.le_findGreatest (by have := hu.depth_lt; rw [hv.len] at this; omega)
        exact ⟨i, hu⟩
    obtain ⟨e, he⟩ := hm1
    have hex : ∀ d, d ≤ m → ∃ j, Up t.c d j r := fun d hd => he.exists_depth d hd
    choose! f hf using hex
    refine ⟨(List.range (m + 1)).map f, ?_, ?_, ?_, ?_, ?_⟩
    · rw [List.nodup_map_iff_inj_on List.nodup_range]
      intro a ha b hb hab
      rw [List.mem_range] at ha hb
      have h1 := hf a (by omega)
      rw [hab] at h1
      exact (h1.det (hf b (by omega))).1
    · intro i
      rw [hmem]
      simp only [List.mem_map, List.mem_range]
      constructor
      · rintro ⟨d, hd, rfl⟩; exact ⟨d, hf d (by omega)⟩
      · rintro ⟨d, hu⟩
        have := hm2 d i hu
        exact ⟨d, by omega, hv.up_inj (hf d this) hu⟩
    · rw [List.isChain_iff_getElem]
      intro i hi
      simp only [List.length_map, List.length_range] at hi
      simp only [List.getElem_map, List.getElem_range]
      have h1 := hf (i + 1) (by omega)
      cases h1 with
      | step _ _ a _ ha h1 =>
        rw [ha, hv.up_inj h1 (hf i (by omega))]
    · refine ⟨r, ?_, hrk, hrc⟩
      rw [List.head?_map, List.range_succ_eq_map]
      simp only [List.head?_cons, Option.map_some, Option.some.injEq]
      exact hv.up_inj (hf 0 (by omega)) (Up.inlet r hrc)
    · have hlt : f m < n := hv.len ▸ (hf m le_rfl).lt
      refine ⟨f m, by rw [List.range_succ]; simp, ?_, ?_⟩
      · rw [hout, outletList_mem]
        refine ⟨hlt, fun hin => ?_⟩
        obtain ⟨i, hi, hget⟩ := List.mem_iff_getElem.mp hin
        have := hm2 (m + 1) i (Up.step m i (f m) r (by rw [List.getElem?_eq_getElem hi, hget]) (hf m le_rfl))
        omega
      · intro o' ho' hc'
        rw [hout, outletList_mem] at ho'
        obtain ⟨d, hu⟩ := (hmem o').mp ⟨ho'.1, hc'⟩
        have hd := hm2 d o' hu
        by_cases hdm : d = m
        · subst hdm; exact hv.up_inj hu (hf d le_rfl)
        · exfalso
          have h1 := hf (d + 1) (by omega)
          cases h1 with
          | step _ _ a _ ha h1 =>
            have := hv.up_inj h1 hu
            subst this
            exact ho'.2 (List.mem_of_getElem? ha)

/-- Non-vacuity: two circuits, one of them with three boreholes in series. -/
example : Valid 4 [-1, 0, -1, 1] := by
  refine ⟨by omega, rfl, ?_, ?_, ?_⟩
  · intro v hv
    simp only [List.mem_cons, List.not_mem_nil, or_false] at hv
    rcases hv with rfl | rfl | rfl | rfl
    · left; rfl
    · right; exact ⟨0, by omega, rfl⟩
    · left; rfl
    · right; exact ⟨1, by omega, rfl⟩
  · intro i j hi hj hij h
    interval_cases i <;> interval_cases j <;> simp_all
  · have h0 : Up [-1, 0, -1, 1] 0 0 0 := Up.inlet 0 rfl
    have h1 : Up [-1, 0, -1, 1] 1 1 0 := Up.step 0 1 0 0 rfl h0
    have h3 : Up [-1, 0, -1, 1] 2 3 0 := Up.step 1 3 1 0 rfl h1
    intro i hi
    interval_cases i
    · exact ⟨_, _, h0⟩
    · exact ⟨_, _, h1⟩
    · exact ⟨_, _, Up.inlet 2 rfl⟩
    · exact ⟨_, _, h3⟩

/-- A list with an entry below `-1` passes the first check of the constructor but is rejected by
the second one. -/
example : verify 2 [-1, -2] = .ok () ∧ construct 2 (some [-1, -2]) = .error .value := by
  constructor <;> rfl

end Verif.Net
