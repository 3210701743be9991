import Verif.Optimizer
/-
  The Verilog text of declared signals and of assignments: dataflow.py `Term.tocode`, `Bind.tocode`.
-/
namespace Pyv

mutual
/-- Some conditional in the tree lacks a side (its `tocode` adds `dest` to the text). -/
def DF.hasGap : DF → Bool
  | .op _ ns => DF.hasGaps ns
  | .psel v m l => v.hasGap || m.hasGap || l.hasGap
  | .ptr v p => v.hasGap || p.hasGap
  | .concat ns => DF.hasGaps ns
  | .branch c t f => c.hasGap || t.hasGap || f.hasGap || t = .none || f = .none
  | .sys _ ns => DF.hasGaps ns
  | _ => false
/-- `DF.hasGap` for lists. -/
def DF.hasGaps : List DF → Bool
  | [] => false
  | n :: ns => n.hasGap || DF.hasGaps ns
end

/-- `node.tocode(None)`: adding None to a text is a TypeError. -/
def DF.tocodeNone (t : DF) : Py Str := if t.hasGap then .error .type else t.tocode []

/-- dataflow.py:437-459 `DFBranch._tocode_always` (`nb`: `always == 'clockedge'`), with the side that is no conditional as
in lines 443-446 and the missing side as in line 440. -/
def DF.alwaysCode (d : Str) (nb : Bool) : DF → Py Str
  | .none => .ok []
  | .branch c t f => do
    let c' ← match c with | .none => .ok [] | c => c.tocode d
    let t' ← t.alwaysCode d nb
    let f' ← f.alwaysCode d nb
    .ok ("if(".toList ++ c' ++ ") begin\n".toList ++ t' ++ "end\n".toList ++
      (if f = .none then [] else "else begin\n".toList ++ f' ++ "end\n".toList))
  | t => do
    let c ← t.tocode d
    .ok (d ++ (if nb then " <= ".toList else " = ".toList) ++ c ++ ";\n".toList)

/-- dataflow.py:843-854 `Bind.getdest`. -/
def Bind.getdest (b : Bind) : Py Str := do
  let d := b.dest.tocode
  let d ← (if b.ptr ≠ .none then do
      let p ← b.ptr.tocodeNone
      .ok (d ++ "[".toList ++ p ++ "]".toList)
    else .ok d)
  if b.msb ≠ .none ∧ b.lsb ≠ .none then do
    let m ← b.msb.tocodeNone
    let l ← b.lsb.tocodeNone
    if m = l then .ok (d ++ "[".toList ++ m ++ "]".toList)
    else .ok (d ++ "[".toList ++ m ++ ":".toList ++ l ++ "]".toList)
  else .ok d

/-- dataflow.py:856-872 `_parameter`, `_localparam`, `_assign`: the three differ in the keyword. -/
def Bind.codeAssign (b : Bind) (word : Str) : Py Str := do
  let d ← b.getdest
  let c ← b.tree.tocode d
  .ok (word ++ " ".toList ++ d ++ " = ".toList ++ c ++ ";\n".toList)

/-- dataflow.py:885-889, 899-903 the body of an always block: a tree that is None has no `tocode`. -/
def Bind.codeBody (b : Bind) (d : Str) (nb : Bool) : Py Str :=
  if b.tree = .none then .error .attribute else b.tree.alwaysCode d nb

/-- dataflow.py:877-883 the sensitivity list of a clocked always block. -/
def AlwaysInfo.codeSens (a : AlwaysInfo) : Str :=
  (match a.clockEdge, a.clockName with
    | some e, some n => e ++ " ".toList ++ n.tocode
    | _, _ => []) ++
  (match a.resetEdge, a.resetName with
    | some e, some n => " or ".toList ++ e ++ " ".toList ++ n.tocode
    | _, _ => [])

/-- dataflow.py:874-892 `_always_clockedge`. -/
def Bind.codeClocked (b : Bind) (a : AlwaysInfo) : Py Str := do
  let d ← b.getdest
  let s ← b.codeBody d true
  .ok ("always @(".toList ++ a.codeSens ++ ") begin\n".toList ++ s ++ "end\n".toList ++ "\n".toList)

/-- dataflow.py:894-906 `_always_combination`. -/
def Bind.codeComb (b : Bind) : Py Str := do
  let d ← b.getdest
  let s ← b.codeBody d false
  .ok ("always @*".toList ++ " begin\n".toList ++ s ++ "end\n".toList ++ "\n".toList)

/-- dataflow.py:831-841 `Bind.tocode`; visit.py:92-95 `isCombination`. -/
def Bind.tocode (b : Bind) : Py Str :=
  if b.param = "parameter".toList then b.codeAssign "parameter".toList
  else if b.param = "localparam".toList then b.codeAssign "localparam".toList
  else match b.always with
    | none => b.codeAssign "assign".toList
    | some a => if a.clockName.isNone then b.codeComb else b.codeClocked a

/-- dataflow.py:768-770: the dimensions of an array; `l.tocode()` has the destination `dest`. -/
def dfDimsCode : List (DF × DF) → Py Str
  | [] => .ok []
  | (l, r) :: ds => do
    let a ← l.tocode "dest".toList
    let b ← r.tocode "dest".toList
    let c ← dfDimsCode ds
    .ok ("[".toList ++ a ++ ":".toList ++ b ++ "]".toList ++ c)

/-- dataflow.py:741-763: the words in front of the name (with `getScope` and `isTopmodule`, 728-734). -/
def Term.words (t : Term) : List Str :=
  let has := fun (x : TermType) => t.types.contains x
  (if t.name.dropLast.length = 1 then
    if has .input then ["input".toList] else if has .inout then ["inout".toList]
    else if has .output then ["output".toList] else []
  else
    if has .input then ["wire".toList] else if has .inout then ["wire".toList]
    else if has .output && !has .reg then ["wire".toList] else []) ++
  (if has .reg then ["reg".toList] else []) ++ (if has .wire then ["wire".toList] else []) ++
  (if has .integer then ["integer".toList] else []) ++ (if has .function then ["wire".toList] else []) ++
  (if has .rename then ["wire".toList] else [])

/-- dataflow.py:736-772 `Term.tocode`. -/
def Term.tocode (t : Term) : Py Str := do
  let w ← (if t.types.contains .integer = false ∧ t.msb ≠ .none ∧ t.lsb ≠ .none then do
      let m ← t.msb.tocodeNone
      let l ← t.lsb.tocodeNone
      .ok ("[".toList ++ m ++ ":".toList ++ l ++ "] ".toList)
    else .ok [])
  let ds ← (match t.dims with
    | none => .ok []
    | some ds => dfDimsCode ds)
  .ok ((t.words.map (· ++ " ".toList)).flatten ++ w ++ t.name.tocode ++ ds ++ ";\n".toList)

end Pyv
