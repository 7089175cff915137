import Verif.Net.UpdateProps
import Verif.Pipe.RfpProps

/-!
# Property C148: a network after a change of the resistances of its boreholes
-/

noncomputable section

namespace Verif.Pipe

open Net

/-- A network of one borehole. -/
theorem one_borehole (k : ℕ) (p : (i : Fin 1) → Net.Pipe k) {m cp : ℝ} (hm : 0 < m) {t : Topology} {f : Formatted} (ht : construct 1 none = .ok t)
    (hf : format t [m] [cp] = .ok f) : ∃ ki ko, netInlet t p f = some ki ∧ netOutlet t p f = some ko ∧ ∀ Tin Tb,
      (netHeat (fluidHeat t p f ki)).eval Tin Tb () = m * cp * ((p 0).outA m cp * Tin + ∑ s, (p 0).outB m cp s * Tb ⟨0, s⟩ - Tin) ∧
      (netMixed (mixing (flowOutlets t f) f.mIn) ko).eval Tin Tb () = (p 0).outA m cp * Tin + ∑ s, (p 0).outB m cp s * Tb ⟨0, s⟩ := by
  have htd : t = ⟨1, [-1], 1, 1, [0], [0], [0]⟩ := by
    have e : construct 1 none = .ok ⟨1, [-1], 1, 1, [0], [0], [0]⟩ := rfl
    rw [e] at ht
    exact (Except.ok.inj ht).symm
  have hfd : f = ⟨[m], false, cp⟩ := by
    have e : format t [m] [cp] = .ok ⟨[m], false, cp⟩ := by
      rw [htd]; simp [format, formatFlow, formatCp, hm.le]
    rw [e] at hf
    exact (Except.ok.inj hf).symm
  obtain ⟨ki, ko, hki, hko, hs⟩ := network_temperatures ht p f
  refine ⟨ki, ko, hki, hko, fun Tin Tb => ?_⟩
  obtain ⟨hsol, -⟩ := hs Tin Tb
  have hmb : mBore t f ((0 : Fin 1) : ℕ) = m := by rw [htd, hfd]; rfl
  have hcp : f.cp = cp := by rw [hfd]
  have hin : flowInlets t f = [0] := by rw [htd, hfd]; rfl
  have hout : flowOutlets t f = [0] := by rw [htd, hfd]; rfl
  have hx : ki.eval Tin Tb 0 = Tin := hsol.inlet 0 ((flowInlets_iff ht f 0).mp (by rw [hin]; simp))
  have hy : ko.eval Tin Tb 0 = (p 0).outA m cp * Tin + ∑ s, (p 0).outB m cp s * Tb ⟨0, s⟩ := by
    rw [hsol.model 0, hx]
    unfold boreA boreB
    rw [hmb, hcp]
  constructor
  · rw [netHeat_eval, Fin.sum_univ_one, (network_borehole_heat p f ki Tin Tb).1 0, hx, hmb, hcp, abs_of_pos hm]
    unfold boreA boreB
    rw [hmb, hcp]
  · rw [mixed_eval, Fin.sum_univ_one, hy, hout, hfd]
    have : mixing [0] [m] ((0 : Fin 1) : ℕ) = 1 := by
      simp [mixing, List.findIdx?_cons, hm.ne']
    rw [this, one_mul]

/-- The heat extraction rate and the outlet of a U-tube in terms of the coefficients used by the network. -/
theorem tube_terms (u : UTube) (zu : ℕ → ℝ) (k : ℕ) {m : ℝ} (hm : 0 < m) (cp Tin : ℝ) (Tb : ℕ → ℝ) :
    (u.netPipe zu k).outA m cp * Tin + ∑ s : Fin k, (u.netPipe zu k).outB m cp s * Tb s = u.outletT zu k m cp Tin Tb ∧
    m * cp * (u.outletT zu k m cp Tin Tb - Tin) = u.fluidHeat zu k m cp Tin Tb := by
  have e : (u.netPipe zu k).outA m cp * Tin + ∑ s : Fin k, (u.netPipe zu k).outB m cp s * Tb s = u.outletT zu k m cp Tin Tb := by
    show (u.par m cp).outA * Tin + ∑ s : Fin k, (u.par m cp).outB zu s * Tb s = (u.par m cp).outA * Tin + ∑ v ∈ Finset.range k, (u.par m cp).outB zu v * Tb v
    rw [Finset.sum_range]
  refine ⟨e, ?_⟩
  rw [UTube.fluidHeat_eq, abs_of_pos hm]

/-- **C148** (violated, U-tubes).  A network of one U-tube, constructed with its operating point.  The resistances of the U-tube change from those of `u` to those
of `u'`, of higher effective resistance.  The network returns the heat extraction rate of `u`, for all temperatures; a new network returns the one of `u'`, which
is different for all uniform wall temperatures other than the inlet temperature. -/
theorem stale_heat {t : Topology} (ht : construct 1 none = .ok t) {u u' : UTube} (hv : u.Valid) (hv' : u'.Valid) (hH : u'.H = u.H) {m cp : ℝ} (hm : 0 < m) (hc : 0 < cp)
    (hlt : u.effectiveResistance m cp < u'.effectiveResistance m cp) {zu : ℕ → ℝ} {k : ℕ} (hz : Edges zu k u.H) :
    ∃ q q' : Coef Unit (fun _ : Fin 1 => k),
      (callHeat (netMachine t fun _ => u'.netPipe zu k) ([m], [cp])
        (runU (netFam t) (fun _ => u.netPipe zu k) (warm ([m], [cp]) ++ [.update fun _ => u'.netPipe zu k])).2).1 = some q ∧
      (callHeat (netMachine t fun _ => u'.netPipe zu k) ([m], [cp]) (runU (netFam t) (fun _ => u'.netPipe zu k) []).2).1 = some q' ∧
      ∀ Tin Tw, q.eval Tin (fun _ => Tw) () = u.fluidHeat zu k m cp Tin (fun _ => Tw) ∧ q'.eval Tin (fun _ => Tw) () = u'.fluidHeat zu k m cp Tin (fun _ => Tw) ∧
        (Tin ≠ Tw → |q'.eval Tin (fun _ => Tw) ()| < |q.eval Tin (fun _ => Tw) ()|) := by
  obtain ⟨f, hf⟩ : ∃ f, format t [m] [cp] = .ok f := by
    have e : construct 1 none = .ok ⟨1, [-1], 1, 1, [0], [0], [0]⟩ := rfl
    rw [e] at ht
    rw [← Except.ok.inj ht]
    exact ⟨⟨[m], false, cp⟩, by simp [format, formatFlow, formatCp, hm.le]⟩
  obtain ⟨p, hp⟩ : ∃ p : (i : Fin 1) → Net.Pipe k, p = fun _ => u.netPipe zu k := ⟨_, rfl⟩
  obtain ⟨p', hp'⟩ : ∃ p : (i : Fin 1) → Net.Pipe k, p = fun _ => u'.netPipe zu k := ⟨_, rfl⟩
  rw [← hp, ← hp']
  obtain ⟨ki, ko, hki, hko, hev⟩ := one_borehole k p hm ht hf
  obtain ⟨ki', ko', hki', hko', hev'⟩ := one_borehole k p' hm ht hf
  have hn : t.nInlets = 1 := by
    have e : construct 1 none = .ok ⟨1, [-1], 1, 1, [0], [0], [0]⟩ := rfl
    rw [e] at ht
    rw [← Except.ok.inj ht]
  have hnz : ∀ x ∈ mcp t.nInlets ([m], [cp]), x ≠ 0 := by
    rw [hn]
    intro x hx
    simp only [mcp, bcast, List.replicate_one, List.zipWith_cons_cons, List.zipWith_nil_left, List.mem_singleton] at hx
    rw [hx]
    exact (mul_pos hm hc).ne'
  have h1 := (kept_after_update t p hnz [.update p'] (by simp) (q := p') rfl hf).2.2.2.2.2.2.2
  have h2 := (update_followed_partial t p' [] ([m], [cp]) (by simp [used, WellSized]) (by simp [used]) (q := p') rfl hf).2.2.2.2.2.1
  rw [hki] at h1
  rw [hki'] at h2
  have hq : ∀ Tin Tw, (netHeat (fluidHeat t p f ki)).eval Tin (fun _ => Tw) () = u.fluidHeat zu k m cp Tin (fun _ => Tw) := fun Tin Tw => by
    have e := tube_terms u zu k hm cp Tin (fun _ => Tw)
    rw [(hev Tin _).1, ← e.2, ← e.1, hp]
  have hq' : ∀ Tin Tw, (netHeat (fluidHeat t p' f ki')).eval Tin (fun _ => Tw) () = u'.fluidHeat zu k m cp Tin (fun _ => Tw) := fun Tin Tw => by
    have e := tube_terms u' zu k hm cp Tin (fun _ => Tw)
    rw [(hev' Tin _).1, ← e.2, ← e.1, hp']
  refine ⟨_, _, h1, h2, fun Tin Tw => ⟨hq Tin Tw, hq' Tin Tw, fun hT => ?_⟩⟩
  rw [hq, hq']
  exact heat_of_effective hv hv' hH hm.ne' hc (Or.inl hm) (Or.inl hm) hlt hz (by rwa [hH]) hT

/-- **C148** (violated, heat balance).  If only the outlet temperatures of the boreholes were asked for before the change, then after it the mixed outlet temperature is the one of
`u` and the heat extraction rate the one of `u'`: the heat extracted is not the heat capacity rate times the temperature rise. -/
theorem unbalanced_after_update {t : Topology} (ht : construct 1 none = .ok t) {u u' : UTube} (hv : u.Valid) (hv' : u'.Valid) (hH : u'.H = u.H) {m cp : ℝ} (hm : 0 < m) (hc : 0 < cp)
    (hlt : u.effectiveResistance m cp < u'.effectiveResistance m cp) {zu : ℕ → ℝ} {k : ℕ} (hz : Edges zu k u.H) :
    ∃ o q : Coef Unit (fun _ : Fin 1 => k),
      (callNetOut (netMachine t fun _ => u'.netPipe zu k) ([m], [cp])
        (runU (netFam t) (fun _ => u.netPipe zu k) [.call (.outlet ([m], [cp])), .update fun _ => u'.netPipe zu k]).2).1 = some (some o) ∧
      (callHeat (netMachine t fun _ => u'.netPipe zu k) ([m], [cp])
        (runU (netFam t) (fun _ => u.netPipe zu k) [.call (.outlet ([m], [cp])), .update fun _ => u'.netPipe zu k]).2).1 = some q ∧
      ∀ Tin Tw, Tin ≠ Tw → |q.eval Tin (fun _ => Tw) ()| < |m * cp * (o.eval Tin (fun _ => Tw) () - Tin)| := by
  obtain ⟨f, hf⟩ : ∃ f, format t [m] [cp] = .ok f := by
    have e : construct 1 none = .ok ⟨1, [-1], 1, 1, [0], [0], [0]⟩ := rfl
    rw [e] at ht
    rw [← Except.ok.inj ht]
    exact ⟨⟨[m], false, cp⟩, by simp [format, formatFlow, formatCp, hm.le]⟩
  obtain ⟨p, hp⟩ : ∃ p : (i : Fin 1) → Net.Pipe k, p = fun _ => u.netPipe zu k := ⟨_, rfl⟩
  obtain ⟨p', hp'⟩ : ∃ p : (i : Fin 1) → Net.Pipe k, p = fun _ => u'.netPipe zu k := ⟨_, rfl⟩
  rw [← hp, ← hp']
  obtain ⟨ki, ko, hki, hko, hev⟩ := one_borehole k p hm ht hf
  obtain ⟨ki', ko', hki', hko', hev'⟩ := one_borehole k p' hm ht hf
  have hn : t.nInlets = 1 := by
    have e : construct 1 none = .ok ⟨1, [-1], 1, 1, [0], [0], [0]⟩ := rfl
    rw [e] at ht
    rw [← Except.ok.inj ht]
  have hnz : ∀ x ∈ mcp t.nInlets ([m], [cp]), x ≠ 0 := by
    rw [hn]
    intro x hx
    simp only [mcp, bcast, List.replicate_one, List.zipWith_cons_cons, List.zipWith_nil_left, List.mem_singleton] at hx
    rw [hx]
    exact (mul_pos hm hc).ne'
  have hhit : (netMachine t p').hit ([m], [cp]) ([m], [cp]) = true := closeTo_self hnz
  have hfmt : ∀ r : (i : Fin 1) → Net.Pipe k, (netMachine t r).fmt ([m], [cp]) = some f := fun r => by
    show (format t [m] [cp]).toOption = some f
    rw [hf]; rfl
  have hs : (runU (netFam t) p [.call (.outlet ([m], [cp])), .update p']).2 = { f := some (some f), sOutlet := some (([m], [cp]), some ko) } := by
    simp only [runU, List.foldl_cons, List.foldl_nil, stepU, step, callOutlet, lookup, netFam_at, hfmt]
    have e : (netMachine t p).outlet (some f) = some ko := hko
    rw [e]
  refine ⟨netMixed (mixing (flowOutlets t f) f.mIn) ko, netHeat (fluidHeat t p' f ki'), ?_, ?_, fun Tin Tw hT => ?_⟩
  · rw [hs]
    simp only [callNetOut, callOutlet, callMix, lookup, hhit, if_true]
    rfl
  · rw [hs]
    simp only [callHeat, callFluid, callInlet, lookup, hfmt]
    have e : (netMachine t p').inlet (some f) = some ki' := hki'
    rw [e]; rfl
  · have e := tube_terms u zu k hm cp Tin (fun _ => Tw)
    have e' := tube_terms u' zu k hm cp Tin (fun _ => Tw)
    have h1 : (netMixed (mixing (flowOutlets t f) f.mIn) ko).eval Tin (fun _ => Tw) () = u.outletT zu k m cp Tin (fun _ => Tw) := by rw [(hev Tin _).2, ← e.1, hp]
    have h2 : (netHeat (fluidHeat t p' f ki')).eval Tin (fun _ => Tw) () = u'.fluidHeat zu k m cp Tin (fun _ => Tw) := by rw [(hev' Tin _).1, ← e'.2, ← e'.1, hp']
    rw [h1, h2, e.2]
    exact heat_of_effective hv hv' hH hm.ne' hc (Or.inl hm) (Or.inl hm) hlt hz (by rwa [hH]) hT

/-- The resistance of the pipes of a U-tube is raised from 0.05 to 0.1 m.K/W (10 cm between the pipes in a borehole of radius 7.5 cm and 150 m): the hypotheses hold. -/
theorem sample_update : ∃ u u' : UTube, Pole.sampleSec.tube 0 150 true (1 / 20) = some u ∧ Pole.sampleSec.tube 0 150 true (1 / 10) = some u' ∧ u.Valid ∧ u'.Valid ∧ u.H = 150 ∧ u'.H = u.H ∧
    u.effectiveResistance (1 / 5) 4000 < u'.effectiveResistance (1 / 5) 4000 := by
  obtain ⟨u, h1, hv, hH, -, -, -, -⟩ := symmetric_tube sampleSec_opposite (H := 150) (by norm_num) true (x := 1 / 20) (by norm_num)
  obtain ⟨u', h1', hv', hH', -, -, -, -⟩ := symmetric_tube sampleSec_opposite (H := 150) (by norm_num) true (x := 1 / 10) (by norm_num)
  refine ⟨u, u', h1, h1', hv, hv', hH, hH'.trans hH.symm, ?_⟩
  exact sample_rises h1 h1'

example : ∃ (u u' : UTube) (q q' : Coef Unit (fun _ : Fin 1 => 1)), ∀ t, construct 1 none = .ok t →
    ((callHeat (netMachine t fun _ => u'.netPipe (fun k => if k = 0 then 0 else 150) 1) ([1 / 5], [4000])
        (runU (netFam t) (fun _ => u.netPipe (fun k => if k = 0 then 0 else 150) 1) (warm ([1 / 5], [4000]) ++ [.update fun _ => u'.netPipe (fun k => if k = 0 then 0 else 150) 1])).2).1 = some q ∧
      (callHeat (netMachine t fun _ => u'.netPipe (fun k => if k = 0 then 0 else 150) 1) ([1 / 5], [4000])
        (runU (netFam t) (fun _ => u'.netPipe (fun k => if k = 0 then 0 else 150) 1) []).2).1 = some q' ∧ |q'.eval 5 (fun _ => 10) ()| < |q.eval 5 (fun _ => 10) ()|) := by
  obtain ⟨u, u', -, -, hv, hv', hH, hH', hlt⟩ := sample_update
  obtain ⟨t, ht⟩ : ∃ t, construct 1 none = .ok t := ⟨_, rfl⟩
  have hz : Edges (fun k => if k = 0 then 0 else (150 : ℝ)) 1 u.H := by
    rw [hH]
    exact ⟨by norm_num, by norm_num, by norm_num, fun i j hij _ => by split_ifs <;> first | omega | norm_num⟩
  obtain ⟨q, q', h1, h2, h3⟩ := stale_heat ht hv hv' hH' (by norm_num) (by norm_num) hlt hz
  refine ⟨u, u', q, q', fun t' ht' => ?_⟩
  rw [ht, Except.ok.injEq] at ht'
  rw [← ht']
  exact ⟨h1, h2, (h3 5 10).2.2 (by norm_num)⟩

end Verif.Pipe
