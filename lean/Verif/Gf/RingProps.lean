import Verif.Gf.EqTempProps
import Verif.Bore.BuildProps

/-!
# Fields in which all boreholes are alike, circle
-/

noncomputable section

namespace Verif.Gf

open Bore FLS Sol Finset EqIn

/-- The boreholes are all alike: for any two boreholes, a symmetry of the field sends one to the other. -/
def AllAlike (E : EqIn) : Prop := ∀ k < E.N, ∀ l < E.N, ∃ σ : ℕ → ℕ, (∀ i < E.N, σ i < E.N) ∧ (∀ i < E.N, ∀ j < E.N, σ i = σ j → i = j) ∧
  (∀ i < E.N, ∀ j < E.N, (E.bore (σ i)).distance (E.bore (σ j)) = (E.bore i).distance (E.bore j)) ∧ σ k = l

variable {E : EqIn} {H D rb alpha : ℝ} {n : ℕ}

theorem range_perm {N : ℕ} {σ : ℕ → ℕ} (h1 : ∀ i < N, σ i < N) (h2 : ∀ i < N, ∀ j < N, σ i = σ j → i = j) : ((List.range N).map σ).Perm (List.range N) := by
  have hnd : ((List.range N).map σ).Nodup := List.Nodup.map_on (fun i hi j hj h => h2 i (List.mem_range.mp hi) j (List.mem_range.mp hj) h) List.nodup_range
  refine (List.subperm_of_subset hnd fun x hx => ?_).perm_of_length_le (by simp)
  obtain ⟨i, hi, rfl⟩ := List.mem_map.mp hx
  exact List.mem_range.mpr (h1 i (List.mem_range.mp hi))

theorem alike_temp (hU : (E.field n).Identical H D rb n) (hS : AllAlike E) {k l : ℕ} (hk : k < E.N) (hl : l < E.N) : E.temp k = E.temp l := by
  obtain ⟨σ, h1, h2, h3, rfl⟩ := hS k hk l hl
  unfold temp
  rw [← ((range_perm h1 h2).map fun j => steady (pairOf (E.bore j) (E.bore (σ k))) true true).sum_eq, List.map_map]
  congr 1
  refine List.map_congr_left fun j hj => ?_
  have hj := List.mem_range.mp hj
  have hp : pairOf (E.bore (σ j)) (E.bore (σ k)) = pairOf (E.bore j) (E.bore k) := by
    unfold pairOf
    rw [h3 j hj k hk]
    have hH : ∀ i < E.N, (E.bore i).H = H := hU.H_eq
    have hD : ∀ i < E.N, (E.bore i).D = D := hU.D_eq
    rw [hH _ (h1 j hj), hH j hj, hH _ (h1 k hk), hH k hk, hD _ (h1 j hj), hD j hj, hD _ (h1 k hk), hD k hk]
  show steady (pairOf (E.bore j) (E.bore k)) true true = steady (pairOf (E.bore (σ j)) (E.bore (σ k))) true true
  rw [hp]

theorem alike_group (hU : (E.field n).Identical H D rb n) (hc : CutOk E.cut) (hS : AllAlike E) : E.clusters.2 = 1 := by
  have hN : 0 < E.N := hU.size
  have hH : ∀ i < E.N, (E.bore i).H = H := hU.H_eq
  have hD : ∀ i < E.N, (E.bore i).D = D := hU.D_eq
  have hr : ∀ i < E.N, (E.bore i).rb = rb := hU.rb_eq
  have ht : 0 < E.tol := hU.tol_eq.1
  unfold clusters
  split_ifs with h1
  · have hdims : ∀ i < E.N, cmpDims E.tol (E.bore i) (E.bore 0) := fun i hi => by
      unfold cmpDims
      rw [hH i hi, hH 0 hN, hD i hi, hD 0 hN, hr i hi, hr 0 hN]
      simpa using ht
    have hu : E.uniqueBoreholes = [List.range E.N] := by
      unfold uniqueBoreholes
      obtain ⟨m, hm⟩ : ∃ m, E.N = m + 1 := ⟨E.N - 1, by omega⟩
      rw [hm, List.range_succ_eq_map, List.foldl_cons]
      have e : addSelf (fun i m => cmpDims E.tol (E.bore i) (E.bore m)) [] 0 = [[0]] := rfl
      rw [e, addSelf_single]
      · simp
      · intro i hi
        obtain ⟨j, hj, rfl⟩ := List.mem_map.mp hi
        have := List.mem_range.mp hj
        exact hdims _ (by omega)
    rw [hu, List.foldl_cons, List.foldl_nil]
    unfold clusterStep
    rw [if_pos (by simpa using h1)]
    dsimp only
    rw [hc.equal _ (by simpa using h1) fun x hx y hy => ?_]
    obtain ⟨k, hk, rfl⟩ := List.mem_map.mp hx
    obtain ⟨l, hl, rfl⟩ := List.mem_map.mp hy
    exact alike_temp hU hS (List.mem_range.mp hk) (List.mem_range.mp hl)
  · show E.N = 1
    omega

theorem alike_balanced (hU : (E.field n).Identical H D rb n) (hc : CutOk E.cut) (hS : AllAlike E) : Balanced E := by
  have h1 := alike_group hU hc hS
  have h0 : ∀ k < E.N, label E k = 0 := fun k hk => by
    have := label_lt E hc hk
    omega
  have hcl : E.cluster 0 = List.range E.N := by
    rw [cluster_filter E hc, List.filter_eq_self]
    intro k hk
    simpa using h0 k (List.mem_range.mp hk)
  intro i hi j hj k hk l hl
  obtain rfl : i = 0 := by omega
  obtain rfl : j = 0 := by omega
  have hk := ((mem_cluster E hc).mp hk).1
  have hl := ((mem_cluster E hc).mp hl).1
  obtain ⟨σ, s1, s2, s3, rfl⟩ := hS k hk l hl
  rw [hcl]
  refine List.Perm.trans ?_ ((range_perm s1 s2).map _)
  rw [List.map_map]
  refine List.Perm.of_eq (List.map_congr_left fun m hm => ?_)
  exact (s3 m (List.mem_range.mp hm) k hk).symm

/-- **C105** (boreholes all alike).  In a field whose boreholes are all alike, one equivalent borehole represents the field exactly: with a uniform temperature the `equivalent` solver with its
`n` segments returns the g-function of the `detailed` solver, and the rates along it are those along every borehole. -/
theorem temperature_alike (ha : 0 < alpha) {K : ℝ → Bool → Borehole → Borehole → ℝ} (hK : ∀ t s r, K t true s r = fls t alpha (pairOf s r) true true) (hc : CutOk E.cut) (hS : AllAlike E)
    (hU : (E.field n).UniformField H D rb n) (hsp : Gf.Spaced rb (bores (E.field n))) {dis : List ℝ} {wDis : List ℕ} (hu : UniqueDistance E.disTol E.allDistances dis wDis)
    {time : List ℝ} (hpos : ∀ t ∈ time, 0 < t) (hs : time.Pairwise (· < ·)) {thr : ℝ} (hthr : 0 < thr) :
    ∃ e g Qs Qs', E.equivalents = some [e] ∧
      temperatureDetailed K (bores (E.field n)) (counts (E.field n)) (ratios (E.field n)) time thr = some (g, Qs) ∧
      temperatureEquivalent (fun t => EqSol.flsE t alpha) (fun t p => fls t alpha p true true) (E.solver [e] dis n (uniformRatios n)) n time thr = some (g, Qs') ∧
      Qs.length = time.length ∧ Qs'.length = time.length ∧
      ∀ (p : ℕ) Q Q', Qs[p]? = some Q → Qs'[p]? = some Q' → ∀ k < E.N, ∀ (a : Fin n), ∀ h, Q ⟨a + n * k, h⟩ = Q' a := by
  obtain ⟨es, g, Qs, Qs', h1, h2, h3, h4, h5, h6, h7⟩ := temperature_balanced ha hK hc (alike_balanced hU.toIdentical hc hS) hU hsp hu hpos hs hthr
  have hone := alike_group hU.toIdentical hc hS
  obtain ⟨e, rfl⟩ : ∃ e, es = [e] := List.length_eq_one_iff.mp (by omega)
  have hn : n * [e].length = n := Nat.mul_one n
  have key : ∃ Qs' : List (Fin (n * [e].length) → ℝ), temperatureEquivalent (fun t => EqSol.flsE t alpha) (fun t p => fls t alpha p true true) (E.solver [e] dis n (uniformRatios n)) (n * [e].length)
      time thr = some (g, Qs') ∧ Qs'.length = time.length ∧
      ∀ (p : ℕ) Q Q', Qs[p]? = some Q → Qs'[p]? = some Q' → ∀ k < E.N, ∀ a < n, ∀ h h', Q ⟨a + n * k, h⟩ = Q' ⟨a + n * label E k, h'⟩ := ⟨Qs', h4, h6, h7⟩
  clear h4 h6 h7
  clear Qs'
  rw [hn] at key
  obtain ⟨Qs', h4, h6, h7⟩ := key
  refine ⟨e, g, Qs, Qs', h1, h3, h4, h5, h6, fun p Q Q' hQ hQ' k hk a h => ?_⟩
  have hlt := label_lt E hc hk
  have hl0 : label E k = 0 := by omega
  have := h7 p Q Q' hQ hQ' k hk a a.isLt h (by rw [hl0]; have := a.isLt; omega)
  rw [this]
  congr 1
  exact Fin.ext (by simp [hl0])

/-! ### Circle -/

theorem circle_angle (N : ℕ) (hN : 0 < N) (i : ℕ) : Real.cos (2 * Real.pi * ((i % N : ℕ) : ℝ) / N) = Real.cos (2 * Real.pi * i / N) ∧
    Real.sin (2 * Real.pi * ((i % N : ℕ) : ℝ) / N) = Real.sin (2 * Real.pi * i / N) := by
  have h : (2 * Real.pi * i / N : ℝ) = 2 * Real.pi * ((i % N : ℕ) : ℝ) / N + (i / N : ℕ) * (2 * Real.pi) := by
    have hN' : (N : ℝ) ≠ 0 := by exact_mod_cast hN.ne'
    have e : (i : ℝ) = ((i % N : ℕ) : ℝ) + N * ((i / N : ℕ) : ℝ) := by exact_mod_cast (Nat.mod_add_div i N).symm
    field_simp
    linear_combination e
  rw [h, Real.cos_add_nat_mul_two_pi, Real.sin_add_nat_mul_two_pi]
  exact ⟨rfl, rfl⟩

/-- The boreholes of a circle are all alike. -/
theorem circle_alike {R : ℝ} (hrb : ∀ k < E.N, (E.bore k).rb = rb) (hpos : ∀ k < E.N, (E.bore k).x = R * Real.cos (2 * Real.pi * k / E.N) ∧ (E.bore k).y = R * Real.sin (2 * Real.pi * k / E.N)) :
    AllAlike E := by
  intro k hk l hl
  have hN : 0 < E.N := by omega
  obtain ⟨s, hs⟩ : ∃ s, s = l + (E.N - k) := ⟨_, rfl⟩
  have hlt : ∀ i, (i + s) % E.N < E.N := fun i => Nat.mod_lt _ hN
  refine ⟨fun i => (i + s) % E.N, fun i _ => hlt i, fun i hi j hj h => ?_, fun i hi j hj => ?_, ?_⟩
  · have h' : i ≡ j [MOD E.N] := Nat.ModEq.add_right_cancel' s h
    unfold Nat.ModEq at h'
    rwa [Nat.mod_eq_of_lt hi, Nat.mod_eq_of_lt hj] at h'
  · have hd : ∀ a b : ℝ, (R * Real.cos a - R * Real.cos b) ^ 2 + (R * Real.sin a - R * Real.sin b) ^ 2 = R ^ 2 * (2 - 2 * Real.cos (a - b)) := fun a b => by
      rw [Real.cos_sub]
      linear_combination R ^ 2 * Real.sin_sq_add_cos_sq a + R ^ 2 * Real.sin_sq_add_cos_sq b
    unfold Borehole.distance
    dsimp only
    rw [hrb i hi, hrb _ (hlt i), (hpos i hi).1, (hpos i hi).2, (hpos j hj).1, (hpos j hj).2, (hpos _ (hlt i)).1, (hpos _ (hlt i)).2, (hpos _ (hlt j)).1, (hpos _ (hlt j)).2,
      (circle_angle E.N hN _).1, (circle_angle E.N hN _).2, (circle_angle E.N hN _).1, (circle_angle E.N hN _).2, hd, hd]
    congr 6
    push_cast
    ring
  · show (k + s) % E.N = l
    rw [hs, show k + (l + (E.N - k)) = l + E.N by omega, Nat.add_mod_right, Nat.mod_eq_of_lt hl]

/-- **C105** (circle).  The boreholes of a field of `circle_field` are all alike. -/
theorem circle_field_alike {N : ℕ} {R : ℝ} {origin : Option (ℝ × ℝ)} {f : Borefield} (hf : circleField N R H D rb 0 origin = some f) (hE : (List.range E.N).map E.bore = f.toBoreholes) : AllAlike E := by
  obtain ⟨f', hf', hwf, hl⟩ := finish_spec H D rb 0 (originOr origin (0, 0)) (circX N R) (circY N R) (by simp [circX, circY])
  obtain rfl : f = f' := Option.some.inj (hf.symm.trans hf')
  have hz : (circX N R).zip (circY N R) = (List.range N).map fun i : ℕ => (R * Real.cos (2 * Real.pi * (i : ℝ) / (N : ℝ)), R * Real.sin (2 * Real.pi * (i : ℝ) / (N : ℝ))) := by
    rw [circX, circY, List.zip_map']
  rw [hl, hz, List.map_map] at hE
  have hN : E.N = N := by simpa using congrArg List.length hE
  have hb : ∀ k < E.N, E.bore k = newBorehole H D rb 0 (originOr origin (0, 0)) (R * Real.cos (2 * Real.pi * (k : ℝ) / (E.N : ℝ)), R * Real.sin (2 * Real.pi * (k : ℝ) / (E.N : ℝ))) := fun k hk => by
    have := congrArg (fun l => l[k]?) hE
    simp only [List.getElem?_map, List.getElem?_range hk, List.getElem?_range (hN ▸ hk), Option.map_some] at this
    rw [Option.some.inj this, hN]
    rfl
  refine circle_alike (rb := rb) (R := R) (fun k hk => ?_) fun k hk => ?_
  · rw [hb k hk]; rfl
  · rw [hb k hk]; exact ⟨rfl, rfl⟩

/-! ### Example -/

/-- Four boreholes of 150 m on a circle of radius 5 m. -/
def ring4 : EqIn := ⟨4, fun k => ⟨150, 4, 3 / 40, 5 * Real.cos (2 * Real.pi * k / 4), 5 * Real.sin (2 * Real.pi * k / 4), 0, 0⟩, 1 / 10 ^ 6, 1 / 100, twoClusters⟩

theorem ring4_alike : AllAlike ring4 := circle_alike (rb := 3 / 40) (R := 5) (fun _ _ => rfl) fun _ _ => ⟨rfl, rfl⟩

theorem ring4_pos (k : ℕ) (hk : k < 4) : Real.cos (2 * Real.pi * k / 4) = ([1, 0, -1, 0] : List ℝ).getD k 0 ∧ Real.sin (2 * Real.pi * k / 4) = ([0, 1, 0, -1] : List ℝ).getD k 0 := by
  interval_cases k
  · simp
  · have : (2 * Real.pi * ((1 : ℕ) : ℝ) / 4) = Real.pi / 2 := by push_cast; ring
    rw [this]; simp
  · have : (2 * Real.pi * ((2 : ℕ) : ℝ) / 4) = Real.pi := by push_cast; ring
    rw [this]; simp
  · have : (2 * Real.pi * ((3 : ℕ) : ℝ) / 4) = Real.pi / 2 + Real.pi := by push_cast; ring
    rw [this, Real.cos_add_pi, Real.sin_add_pi]; simp

theorem ring4_square (k l : ℕ) (hk : k < 4) (hl : l < 4) : ((ring4.bore k).x - (ring4.bore l).x) ^ 2 + ((ring4.bore k).y - (ring4.bore l).y) ^ 2 = if k = l then 0 else if (k + l) % 2 = 0 then 100 else 50 := by
  show (5 * Real.cos _ - 5 * Real.cos _) ^ 2 + (5 * Real.sin _ - 5 * Real.sin _) ^ 2 = _
  rw [(ring4_pos k hk).1, (ring4_pos k hk).2, (ring4_pos l hl).1, (ring4_pos l hl).2]
  interval_cases k <;> interval_cases l <;> norm_num

theorem ring4_distance (k l : ℕ) (hk : k < 4) (hl : l < 4) : (ring4.bore k).distance (ring4.bore l) = if k = l then 3 / 40 else if (k + l) % 2 = 0 then 10 else √50 := by
  unfold Borehole.distance
  rw [ring4_square k l hk hl]
  show max (3 / 40) _ = _
  have h7 : (7 : ℝ) < √50 := Real.lt_sqrt_of_sq_lt (by norm_num)
  split_ifs
  · rw [Real.sqrt_zero]; norm_num
  · rw [show (100 : ℝ) = 10 ^ 2 by norm_num, Real.sqrt_sq (by norm_num)]; norm_num
  · exact max_eq_right (by linarith)

theorem ring4_uniform : (ring4.field 12).UniformField 150 4 (3 / 40) 12 := by
  refine ⟨⟨by norm_num [field, ring4], fun _ _ => rfl, fun _ _ => rfl, fun _ _ => rfl, fun _ _ => rfl, fun _ _ => rfl, fun _ _ => rfl, by norm_num, by norm_num [field, ring4], by norm_num [field, ring4]⟩, ?_⟩
  intro k hk l hl m hm o ho h
  have hk : k < 4 := hk
  have hl : l < 4 := hl
  have hm : m < 4 := hm
  have ho : o < 4 := ho
  have h7 : (7 : ℝ) < √50 := Real.lt_sqrt_of_sq_lt (by norm_num)
  have h8 : √50 < (8 : ℝ) := by rw [Real.sqrt_lt' (by norm_num)]; norm_num
  have ht : (ring4.field 12).disTol = 1 / 100 := rfl
  have e : ∀ i, (ring4.field 12).bore i = ring4.bore i := fun _ => rfl
  rw [ht]
  rw [e, e, e, e, ring4_distance k l hk hl, ring4_distance m o hm ho] at *
  split_ifs at h ⊢ <;> linarith

theorem ring4_spaced : Gf.Spaced (3 / 40) (bores (ring4.field 12)) := by
  rw [spaced_iff]
  intro k hk l hl hkl
  have := ring4_square k l hk hl
  show _ ≤ ((ring4.bore k).x - (ring4.bore l).x) ^ 2 + ((ring4.bore k).y - (ring4.bore l).y) ^ 2
  rw [this, if_neg hkl]
  split_ifs <;> norm_num

/-- Non-vacuity: the circle of four boreholes. -/
example : ∃ dis wDis e g Qs Qs', UniqueDistance ring4.disTol ring4.allDistances dis wDis ∧ ring4.equivalents = some [e] ∧
    temperatureDetailed (fun t _ s r => fls t (1 / 10 ^ 6) (pairOf s r) true true) (bores (ring4.field 12)) (counts (ring4.field 12)) (ratios (ring4.field 12)) [3600, 10 ^ 6, 10 ^ 9] 3600 = some (g, Qs) ∧
    temperatureEquivalent (fun t => EqSol.flsE t (1 / 10 ^ 6)) (fun t p => fls t (1 / 10 ^ 6) p true true) (ring4.solver [e] dis 12 (uniformRatios 12)) 12 [3600, 10 ^ 6, 10 ^ 9] 3600 = some (g, Qs') := by
  obtain ⟨dis, wDis, -, hu, -⟩ := unique_distance_groups ring4.disTol (by norm_num [ring4]) ring4.allDistances (by
    intro x hx
    obtain ⟨k, hk, l, hl, rfl⟩ := (ring4.mem_allDistances ring4_uniform.toIdentical).mp hx
    exact lt_of_lt_of_le (by norm_num [ring4]) (le_max_left _ _))
  obtain ⟨e, g, Qs, Qs', h1, h2, h3, -⟩ := temperature_alike (alpha := 1 / 10 ^ 6) (K := fun t _ s r => fls t (1 / 10 ^ 6) (pairOf s r) true true) (by norm_num) (fun _ _ _ => rfl) twoClusters_ok ring4_alike
    ring4_uniform ring4_spaced hu (time := [3600, 10 ^ 6, 10 ^ 9]) (by norm_num) (by norm_num) (thr := 3600) (by norm_num)
  exact ⟨dis, wDis, e, g, Qs, Qs', hu, h1, h2, h3⟩

/-- Fluid at the same temperature everywhere in the four boreholes. -/
example : ∃ dis wDis es, UniqueDistance ring4.disTol ring4.allDistances dis wDis ∧ ring4.equivalents = some es ∧
    ∃ (f : Flow (segmentList (bores (ring4.field 12)) (counts (ring4.field 12)) (ratios (ring4.field 12))).length) (f' : Flow (12 * es.length)) (g : List ℝ),
      (∃ Qs Ts, mixedDetailed (fun t _ s r => fls t (1 / 10 ^ 6) (pairOf s r) true true) (bores (ring4.field 12)) (counts (ring4.field 12)) (ratios (ring4.field 12)) f [3600, 10 ^ 6, 10 ^ 9] 3600 =
        some (g, Qs, Ts)) ∧
      ∃ Qs Ts, mixedEquivalent (fun t => EqSol.flsE t (1 / 10 ^ 6)) (fun t p => fls t (1 / 10 ^ 6) p true true) (ring4.solver es dis 12 (uniformRatios 12)) f' [3600, 10 ^ 6, 10 ^ 9] 3600 =
        some (g, Qs, Ts) := by
  obtain ⟨dis, wDis, -, hu, -⟩ := unique_distance_groups ring4.disTol (by norm_num [ring4]) ring4.allDistances (by
    intro x hx
    obtain ⟨k, hk, l, hl, rfl⟩ := (ring4.mem_allDistances ring4_uniform.toIdentical).mp hx
    exact lt_of_lt_of_le (by norm_num [ring4]) (le_max_left _ _))
  obtain ⟨es, hes, -, -⟩ := ring4.uniform_equivalents twoClusters_ok ring4_uniform.toIdentical
  have hft := identical_fit ring4_uniform.toIdentical
  have hpar : ∀ N, ParallelFlow 12 (fun _ => -3) (fun a b => if a = b then 3 else 0) (150 / (12 : ℕ)) (N := N) ⟨fun _ => -3, fun i j => if i = j then 3 else 0, 4, 1 / 10, 2, fun _ => 150 / (12 : ℕ)⟩ :=
    fun N => ⟨fun _ _ _ _ => rfl, fun k l a ha b hb h h' => by
      by_cases hkl : k = l
      · subst hkl
        by_cases hab : a = b
        · subst hab; simp
        · simp [hab]
      · have : a + 12 * k ≠ b + 12 * l := by omega
        simp [hkl, this], fun _ => rfl⟩
  obtain ⟨g, Qs, Qs', Ts, Ts', h1, h2, -⟩ := mixed_balanced (alpha := 1 / 10 ^ 6) (K := fun t _ s r => fls t (1 / 10 ^ 6) (pairOf s r) true true) (by norm_num) (fun _ _ _ => rfl) twoClusters_ok
    (alike_balanced ring4_uniform.toIdentical twoClusters_ok ring4_alike) ring4_uniform ring4_spaced hu (time := [3600, 10 ^ 6, 10 ^ 9]) (by norm_num) (by norm_num) (thr := 3600) (by norm_num) hes
    (hpar _) (hpar _) rfl rfl rfl ⟨fun i => by simp, fun θ => by
      refine Finset.sum_nonneg fun i _ => ?_
      simp only [ite_mul, zero_mul, Finset.sum_ite_eq, Finset.mem_univ, if_true]
      nlinarith [mul_self_nonneg (θ i)], ⟨⟨0, segments_nonempty hft.upright hft.splits⟩, by norm_num⟩⟩ (by norm_num)
  exact ⟨dis, wDis, es, hu, hes, _, _, g, ⟨Qs, Ts, h1⟩, Qs', Ts', h2⟩

end Verif.Gf
