import Verif.Pipe.GeomModel

/-!
# Model of what the cross-section of a borehole shows

Models `pygfunction/pipes.py`: `_BasePipe.visualize_pipes` (l. 742-808) and `Coaxial.visualize_pipes` (l. 2642-2715):
circles and labels.

Simplifications: a figure is the list of its circles and labels; colours (except for their number), styles, axes and layout
are left out; `none` is the `IndexError` of a missing position or colour.
-/

noncomputable section

namespace Verif.Pipe.Geom

/-- `plt.Circle`. -/
structure Circle where
  centre : ℝ × ℝ
  r : ℝ

/-- A figure: wall, outlines of the pipes, labels. -/
structure Drawing where
  wall : Circle
  pipes : List Circle
  labels : List ((ℝ × ℝ) × ℕ)

/-- One turn of the loop of `_BasePipe.visualize_pipes` (l. 777-804); `colors[i]` needs `i` to be an index. -/
def drawPair (a : UArgs) (colors : ℕ) (d : Drawing) (i : ℕ) : Option Drawing :=
  match a.pos[i]?, a.pos[i + a.nPipes]? with
  | some p, some q => if i < colors then
      some { d with pipes := d.pipes ++ [⟨p, a.rIn⟩, ⟨p, a.rOut⟩, ⟨q, a.rIn⟩, ⟨q, a.rOut⟩],
                    labels := d.labels ++ [(p, i), (q, i + a.nPipes)] }
    else none
  | _, _ => none

/-- `_BasePipe.visualize_pipes` with a cycle of `colors` colours. -/
def drawU (a : UArgs) (colors : ℕ) : Option Drawing :=
  (List.range a.nPipes).foldlM (drawPair a colors) ⟨⟨(0, 0), a.rB⟩, [], []⟩

/-- One turn of the loop of `Coaxial.visualize_pipes` (l. 2677-2711); `nPipes = 1`. -/
def drawCoax (a : CArgs) (d : Drawing) (ip : (ℝ × ℝ) × ℕ) : Drawing :=
  { d with
    pipes := d.pipes ++ [⟨ip.1, a.rIn 0⟩, ⟨ip.1, a.rOut 0⟩, ⟨ip.1, a.rIn 1⟩, ⟨ip.1, a.rOut 1⟩]
    labels := d.labels ++
      [(if a.iInner = 0 then ip.1 else (ip.1.1 + 0.5 * (a.rOut 0 + a.rIn 1), ip.1.2), ip.2),
        (if a.iInner = 1 then ip.1 else (ip.1.1 + 0.5 * (a.rOut 0 + a.rIn 1), ip.1.2), ip.2 + 1)] }

/-- `Coaxial.visualize_pipes`; `zip(self.pos, colors)` stops with the shorter one. -/
def drawC (a : CArgs) (colors : ℕ) : Drawing :=
  ((a.pos.take colors).zipIdx).foldl (drawCoax a) ⟨⟨(0, 0), a.rB⟩, [], []⟩

end Verif.Pipe.Geom
