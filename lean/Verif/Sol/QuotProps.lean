import Verif.Sol.QuotLemmas

/-!
# Groups of sources, symmetries and order of the sources
-/

noncomputable section

namespace Verif.Sol

open Matrix Bore

variable {n m : ℕ} {π : Fin n → Fin m} {F : Fin n → Fin n → ℝ → ℝ} {F' : Fin m → Fin m → ℝ → ℝ} {tl : List ℝ}

/-! ### Uniform temperature -/

theorem ubwtLoop_grouped (hG : Grouped π F F' tl) {H : Fin n → ℝ} {H' : Fin m → ℝ} (hH : ∀ c, ∑ k with π k = c, H k = H' c) {p : ℕ} {l : List ((Fin n → ℝ) × ℝ)}
    {l' : List ((Fin m → ℝ) × ℝ)} (h : ubwtLoop H tl (fun i j => tl.map (F i j)) p = some l) (h' : ubwtLoop H' tl (fun i j => tl.map (F' i j)) p = some l') :
    l = l'.map fun x => (fun i => x.1 (π i), x.2) := by
  induction p generalizing l l' with
  | zero =>
    rw [ubwtLoop] at h h'
    rw [← Option.some.inj h, ← Option.some.inj h']
    rfl
  | succ p ih =>
    obtain ⟨l0, x, h0, hx, rfl⟩ := ubwtLoop_succ h
    obtain ⟨l0', x', h0', hx', rfl⟩ := ubwtLoop_succ h'
    have e := ih h0 h0'
    rw [List.map_append, ← e]
    congr 1
    simp only [List.map_cons, List.map_nil, List.cons.injEq, and_true]
    obtain ⟨hd, T0, hs, -, -, huniq⟩ := ubwtStep_spec hx
    obtain ⟨hd', T0', hs', h1', h2', -⟩ := ubwtStep_spec hx'
    have epast : l0.map Prod.fst = (l0'.map Prod.fst).map fun Q i => Q (π i) := by
      rw [e, List.map_map, List.map_map]
      rfl
    rw [epast] at hs
    obtain ⟨g1, g2⟩ := stepData_grouped hG hs hs'
    refine (huniq _ _ (fun i => ?_) ?_).symm
    · rw [h1' (π i), g2 i, sum_lift π]
      simp only [g1]
    · rw [sum_lift π, sum_groups π hH, ← h2']
      simp only [hH]

theorem linearizeQ_lift (time : List ℝ) (thr : ℝ) (Qs : List (Fin m → ℝ)) :
    linearizeQ time thr (Qs.map fun Q (i : Fin n) => Q (π i)) = (linearizeQ time thr Qs).map fun Q i => Q (π i) := by
  unfold linearizeQ
  split_ifs
  · rw [List.map_append, List.map_map, ← List.map_tail]
    congr 1
    refine List.map_congr_left fun t _ => ?_
    funext i
    cases Qs <;> rfl
  · rfl

/-- **C104** (groups, uniform temperature).  When the sources of every group together have the same response at all sources of a group, the solution for the sources is the solution for
the groups: the same g-function, and the heat extraction rates of the groups. -/
theorem ubwt_grouped {resp : List ℝ → Fin n → Fin n → List ℝ} {resp' : List ℝ → Fin m → Fin m → List ℝ} (hF : Sampled F resp) (hF' : Sampled F' resp') {time : List ℝ} {thr : ℝ}
    (hG : Grouped π F F' (timeLong time thr)) {H : Fin n → ℝ} {H' : Fin m → ℝ} (hH : ∀ c, ∑ k with π k = c, H k = H' c) {g g' : List ℝ} {Qs : List (Fin n → ℝ)} {Qs' : List (Fin m → ℝ)}
    (h : ubwt H resp time thr = some (g, Qs)) (h' : ubwt H' resp' time thr = some (g', Qs')) : g = g' ∧ Qs = Qs'.map fun Q i => Q (π i) := by
  unfold ubwt at h h'
  dsimp only at h h'
  rw [show resp (timeLong time thr) = fun i j => (timeLong time thr).map (F i j) from funext fun i => funext fun j => hF _ i j] at h
  rw [show resp' (timeLong time thr) = fun i j => (timeLong time thr).map (F' i j) from funext fun i => funext fun j => hF' _ i j] at h'
  split at h
  · simp at h
  · rename_i l hl
    split at h'
    · simp at h'
    · rename_i l' hl'
      have e := ubwtLoop_grouped hG hH hl hl'
      obtain ⟨rfl, rfl⟩ := Prod.mk.inj (Option.some.inj h)
      obtain ⟨rfl, rfl⟩ := Prod.mk.inj (Option.some.inj h')
      refine ⟨?_, ?_⟩
      · rw [e, List.map_map]
        rfl
      · rw [← linearizeQ_lift, e, List.map_map, List.map_map]
        rfl

/-! ### Mixed inlet temperature -/

/-- The network of the groups: one borehole of a group stands for all. -/
structure GroupedFlow (π : Fin n → Fin m) (f : Flow n) (f' : Flow m) : Prop where
  aIn : ∀ i, f.aIn i = f'.aIn (π i)
  aB : ∀ i c, ∑ k with π k = c, f.aB i k = f'.aB (π i) c
  Hb : ∀ i, f.Hb i = f'.Hb (π i)
  mcp : f.mcp = f'.mcp
  R : f.R = f'.R
  ks : f.ks = f'.ks

theorem miftLoop_grouped (hG : Grouped π F F' tl) {f : Flow n} {f' : Flow m} (hf : GroupedFlow π f f') {H : Fin n → ℝ} {H' : Fin m → ℝ} (hH : ∀ c, ∑ k with π k = c, H k = H' c) {p : ℕ}
    {l : List (MiftState n)} {l' : List (MiftState m)} (h : miftLoop H f tl (fun i j => tl.map (F i j)) p = some l) (h' : miftLoop H' f' tl (fun i j => tl.map (F' i j)) p = some l') :
    l = l'.map fun x => ⟨fun i => x.Q (π i), fun i => x.T (π i), x.Tin, x.g⟩ := by
  induction p generalizing l l' with
  | zero =>
    rw [miftLoop] at h h'
    rw [← Option.some.inj h, ← Option.some.inj h']
    rfl
  | succ p ih =>
    obtain ⟨l0, x, h0, hx, rfl⟩ := miftLoop_succ h
    obtain ⟨l0', x', h0', hx', rfl⟩ := miftLoop_succ h'
    have e := ih h0 h0'
    rw [List.map_append, ← e]
    congr 1
    simp only [List.map_cons, List.map_nil, List.cons.injEq, and_true]
    obtain ⟨hd, T0, hs, -, -, -, hg⟩ := miftStep_spec hx
    obtain ⟨hd', T0', hs', h1', h2', h3', hg'⟩ := miftStep_spec hx'
    have hs0 := hs
    have epast : l0.map MiftState.Q = (l0'.map MiftState.Q).map fun Q i => Q (π i) := by
      rw [e, List.map_map, List.map_map]
      rfl
    rw [epast] at hs
    obtain ⟨g1, g2⟩ := stepData_grouped hG hs hs'
    obtain ⟨e1, e2, e3⟩ := miftStep_unique hx hs0 (Q := fun i => x'.Q (π i)) (T := fun i => x'.T (π i)) (Tin := x'.Tin)
      (fun i => by rw [h1' (π i), g2 i, sum_lift π]; simp only [g1])
      (fun i => by
        rw [sum_lift π (fun k => f.aB i k / (2 * Real.pi * f.ks * f.Hb i))]
        simp only [← Finset.sum_div, hf.aB, hf.aIn, hf.Hb, hf.ks]
        exact h2' (π i))
      (by rw [sum_lift π, sum_groups π hH, ← h3']; simp only [hH])
    obtain ⟨xQ, xT, xTin, xg⟩ := x
    simp only at e1 e2 e3 hg
    subst e1 e2 e3
    simp only [MiftState.mk.injEq, true_and]
    rw [hg, hg', sum_groups π hH]
    unfold effective
    rw [hf.mcp, hf.R, hf.ks]

/-- **C104** (groups, mixed inlet temperature). -/
theorem mift_grouped {resp : List ℝ → Fin n → Fin n → List ℝ} {resp' : List ℝ → Fin m → Fin m → List ℝ} (hF : Sampled F resp) (hF' : Sampled F' resp') {time : List ℝ} {thr : ℝ}
    (hG : Grouped π F F' (timeLong time thr)) {f : Flow n} {f' : Flow m} (hf : GroupedFlow π f f') {H : Fin n → ℝ} {H' : Fin m → ℝ} (hH : ∀ c, ∑ k with π k = c, H k = H' c)
    {g g' : List ℝ} {Qs : List (Fin n → ℝ)} {Qs' : List (Fin m → ℝ)} {Ts : Fin n → List ℝ} {Ts' : Fin m → List ℝ} (h : mift H f resp time thr = some (g, Qs, Ts))
    (h' : mift H' f' resp' time thr = some (g', Qs', Ts')) : g = g' ∧ Qs = (Qs'.map fun Q i => Q (π i)) ∧ ∀ i, Ts i = Ts' (π i) := by
  unfold mift at h h'
  dsimp only at h h'
  rw [show resp (timeLong time thr) = fun i j => (timeLong time thr).map (F i j) from funext fun i => funext fun j => hF _ i j] at h
  rw [show resp' (timeLong time thr) = fun i j => (timeLong time thr).map (F' i j) from funext fun i => funext fun j => hF' _ i j] at h'
  split at h
  · simp at h
  · rename_i l hl
    split at h'
    · simp at h'
    · rename_i l' hl'
      have e := miftLoop_grouped hG hf hH hl hl'
      have h := Option.some.inj h
      have h' := Option.some.inj h'
      simp only [Prod.mk.injEq] at h h'
      obtain ⟨rfl, rfl, rfl⟩ := h
      obtain ⟨rfl, rfl, rfl⟩ := h'
      refine ⟨?_, ?_, fun i => ?_⟩
      · rw [e, List.map_map]
        rfl
      · rw [← linearizeQ_lift, e, List.map_map, List.map_map]
        rfl
      · dsimp only
        rw [e, List.map_map]
        rfl

end Verif.Sol
