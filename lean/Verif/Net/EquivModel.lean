import Verif.Net.FlowModel

/-!
# Model of `networks._EquivalentNetwork`

Models `pygfunction/networks.py` l. 1407-1656: constructor, `_format_inputs`, `_coefficients_mixing` and
`coefficients_network_heat_extraction_rate`; the inherited methods are those of `FlowModel`.
Simplifications as in `FlowModel`; only scalar flow rates and heat capacities are modelled
(for arrays with several elements the test `if self._is_reversed` of l. 1606 raises).
-/

noncomputable section

namespace Verif.Net

variable {n : ℕ} {ns : Fin n → ℕ}

/-- `_EquivalentNetwork.__init__` (l. 1474-1487): all groups in parallel, no verification of the
connectivity. -/
def eqConstruct (n : ℕ) : Except Err Topology := findInletsOutlets n (List.replicate n (-1))

/-- `_EquivalentNetwork._format_inputs` (l. 1596-1628) for scalars; `w` is the number of boreholes in each
group. -/
def eqFormat (t : Topology) (w : List ℕ) (m cp : ℝ) : Formatted where
  mIn := List.replicate t.n (m / (w.sum : ℕ))
  rev := open Classical in decide (m < 0)
  cp := cp

/-- `_EquivalentNetwork._coefficients_mixing` (l. 1582-1586). -/
def eqMixing (outlets : List ℕ) (mIn : List ℝ) (w : List ℕ) : ℕ → ℝ := fun i =>
  match outlets.findIdx? (· = i) with
  | some k => (List.zipWith (fun (a : ℝ) (b : ℕ) => |a| * b) mIn w).getD k 0
      / (List.zipWith (fun (a : ℝ) (b : ℕ) => |a| * b) mIn w).sum
  | none => 0

/-- `_EquivalentNetwork.coefficients_network_heat_extraction_rate` (l. 1542-1549). -/
def eqHeat (w : List ℕ) (k : Coef (Fin n) ns) : Coef Unit ns where
  aIn := fun _ => ∑ i : Fin n, (w.getD i 0 : ℝ) * k.aIn i
  aB := fun _ s => ∑ i : Fin n, (w.getD i 0 : ℝ) * k.aB i s

/-- `_EquivalentNetwork.__init__`, l. 1473: total length. -/
def eqHtot (w : List ℕ) (H : List ℝ) : ℝ := (List.zipWith (fun (h : ℝ) (b : ℕ) => h * b) H w).sum

end Verif.Net
