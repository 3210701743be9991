import Verif.Fsm
import Verif.Graphgen
/-
  Model of pyverilog/controlflow/controlflow_analyzer.py: the drawing of a state machine (`tograph`).
-/
namespace Pyv

/-- `str(node)` of every node class: dataflow.py:81-85 (Terminal), otherwise what `tolabel` gives (57; see `DF.tolabel`). -/
def DF.repr : DF → Py Str
  | .term n => .ok (ScopeChain.repr n)
  | t => t.tolabel

/-- The graph of `tograph`: pygraphviz's `AGraph(directed=True)`, which is strict (one edge for a pair of nodes), with the labels of nodes and
edges. -/
structure FsmGraph where
  nodes : Dict Str Str
  edges : Dict (Str × Str) Str
  deriving DecidableEq, Repr

/-- controlflow_analyzer.py:235-238, 243-246: the label of an edge; `str(None)` is `None`. -/
def condLabel (nolabel : Bool) (c : Option DF) : Py Str :=
  if nolabel then .ok []
  else match c with
    | none => .ok "None".toList
    | some c => c.repr

/-- controlflow_analyzer.py:233-238, 241-246: the lines from one state.  An edge that exists gets the new label. -/
def drawDst (nolabel : Bool) (src : Int) : DstDict → FsmGraph → Py FsmGraph
  | [], g => .ok g
  | (c, d) :: dd, g => do
    let l ← condLabel nolabel c
    drawDst nolabel src dd ⟨g.nodes.set (intStr d) (intStr d), g.edges.set (intStr src, intStr d) l⟩

/-- controlflow_analyzer.py:231-238. -/
def drawStates (nolabel : Bool) : List (Int × DstDict) → FsmGraph → Py FsmGraph
  | [], g => .ok g
  | (s, dd) :: r, g => do
    let g' ← drawDst nolabel s dd { g with nodes := g.nodes.set (intStr s) (intStr s) }
    drawStates nolabel r g'

/-- controlflow_analyzer.py:240-246. -/
def drawAny (nolabel : Bool) (any : DstDict) : List Int → FsmGraph → Py FsmGraph
  | [], g => .ok g
  | s :: r, g => do
    let g' ← drawDst nolabel s any g
    drawAny nolabel any r g'

/-- controlflow_analyzer.py:227-246 `tograph`, up to the writing of the files. -/
def Fsm.tograph (nolabel : Bool) (m : Fsm) : Py FsmGraph := do
  let g ← drawStates nolabel m.fsm ⟨[], []⟩
  drawAny nolabel m.any (m.fsm.map (·.1)) g

/-! ### controlflow_analyzer.py:206-225 `view` -/

/-- controlflow_analyzer.py:210-213, 220-223: the text of a condition; a part of a conditional that is missing is printed as `dest`
(the default of `tocode`'s argument). -/
def viewCond : Option DF → Py Str
  | none => .ok "None".toList
  | some c => c.tocode "dest".toList

/-- controlflow_analyzer.py:207-215, 217-225: the lines of one dictionary of transitions, each behind `head` (`any -- ` or `%d --`). -/
def viewDst (head : Str) : DstDict → Py (List Str)
  | [] => .ok []
  | (c, d) :: dd => do
    let t ← viewCond c
    let r ← viewDst head dd
    .ok ((head ++ t ++ "--> ".toList ++ intStr d) :: r)

/-- controlflow_analyzer.py:216-225. -/
def viewStates : List (Int × DstDict) → Py (List Str)
  | [] => .ok []
  | (s, dd) :: r => do
    let a ← viewDst (intStr s ++ " --".toList) dd
    let b ← viewStates r
    .ok (a ++ b)

/-- controlflow_analyzer.py:206-225 `view`: the printed lines; what is printed in front of an exception is not modelled. -/
def Fsm.view (m : Fsm) : Py (List Str) := do
  let a ← viewDst "any -- ".toList m.any
  let b ← viewStates m.fsm
  .ok (a ++ b)

end Pyv
