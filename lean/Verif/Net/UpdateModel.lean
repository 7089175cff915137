import Verif.Net.CacheModel

/-!
# Model of a network whose boreholes change

Models the use of `networks.Network` (`pygfunction/networks.py`) together with `update_thermal_resistances` of its pipes
(`pygfunction/pipes.py` l. 1327-1348, 1865-1886, 2309-2330, 2608-2639): the network holds references to the pipes (`self.p = pipes`, l. 90)
and reads their coefficients when it computes (l. 622-645, 702-725, 913-935, 992-1014).  The method of the pipe clears the coefficients stored by
the pipe, and nothing in the network.

Simplification: the pipes return the coefficients of their present resistances (property C42; their own stores are not modelled here).  `nSegments`
and `segment_ratios` are fixed, and only calls that do not raise are modelled, as in `CacheModel`.
-/

noncomputable section

namespace Verif.Net

/-- What the methods of a network compute, given the present pipes `P`; what is found in the stores, the inputs, the sums over the boreholes
and the mixing do not involve the pipes. -/
structure Fam (P A F V B U W : Type*) where
  hit : A → A → Bool
  near : A → A → Bool
  fmt : A → F
  inlet : P → F → V
  outlet : P → F → V
  bore : P → F → V → B
  fluid : P → F → V → V
  sum : V → U
  inv : U → U
  mix : F → W
  comb : W → V → U

variable {P A F V B U W : Type*}

/-- The methods with the pipes `p`. -/
def Fam.at (N : Fam P A F V B U W) (p : P) : Machine A F V B U W where
  hit := N.hit
  near := N.near
  fmt := N.fmt
  inlet := N.inlet p
  outlet := N.outlet p
  bore := N.bore p
  fluid := N.fluid p
  sum := N.sum
  inv := N.inv
  mix := N.mix
  comb := N.comb

/-- What the user does: call a method of the network, or change the resistances of its pipes (`update_thermal_resistances`). -/
inductive Ev (P A : Type*)
  | call (c : Call A)
  | update (p : P)

/-- The pipes and the network after an action; a change of the pipes leaves the network as it is. -/
def stepU (N : Fam P A F V B U W) (s : P × St A F V B U W) : Ev P A → P × St A F V B U W
  | .call c => (s.1, step (N.at s.1) s.2 c)
  | .update p => (p, s.2)

/-- The pipes and the network after the actions `evs` on a new network with the pipes `p`. -/
def runU (N : Fam P A F V B U W) (p : P) (evs : List (Ev P A)) : P × St A F V B U W := evs.foldl (stepU N) (p, {})

/-- The calls of the constructor when the operating point is given (l. 1163-1178). -/
def warm (a : A) : List (Ev P A) :=
  [.call (.inlet a), .call (.outlet a), .call (.netIn a), .call (.netOut a), .call (.bore a), .call (.fluid a), .call (.heat a)]

variable {n : ℕ} {ns : Fin n → ℕ}

/-- Networks of topology `t`. -/
def netFam (t : Topology) : Fam ((i : Fin n) → Pipe (ns i)) NetArgs (Option Formatted) (Option (Coef (Fin n) ns)) (Option (Coef (SegIdx ns) ns))
    (Option (Coef Unit ns)) (ℕ → ℝ) where
  hit := fun k a => closeTo (mcp t.nInlets a) (mcp t.nInlets k)
  near := fun k a => closeTo (bcast t.nInlets a.1) (bcast t.nInlets k.1)
  fmt := fun a => (format t a.1 a.2).toOption
  inlet := fun p f => f.bind fun f => netInlet t p f
  outlet := fun p f => f.bind fun f => netOutlet t p f
  bore := fun p f v => f.bind fun f => v.map (boreHeat t p f)
  fluid := fun p f v => f.bind fun f => v.map (fluidHeat t p f)
  sum := fun v => v.map netHeat
  inv := fun u => u.bind netFromHeat
  mix := fun f => match f with
    | some f => mixing (flowOutlets t f) f.mIn
    | none => fun _ => 0
  comb := fun w v => v.map (netMixed w)

end Verif.Net
