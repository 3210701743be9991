import Verif.Graphgen
import Verif.Splitter
import Verif.Binder
/-
  The dumps of trees, signals and assignments: `tostr` in dataflow.py, with `__repr__` in scope.py; and the test for reset
  conditions, which looks at the dump (splitter.py:59-63).
-/
namespace Pyv

/-- A part of a dump that is left out if the object is None (`x` is its dump): dataflow.py:407-412, 622-623, 703-706,
820-827. -/
def dumpPart (word : Str) (t : DF) (x : Py Str) : Py Str :=
  if t = .none then .ok [] else do
    let s ← x
    .ok (word ++ s)

mutual
/-- `tostr` of every node class: dataflow.py:87-91 (Terminal), 149-151, 194-196, 206-208 (constants), 232-238 (Operator),
277-283 (Partselect), 325-330 (Pointer), 363-369 (Concat), 405-414 (Branch), 505-517 (EvalValue), 555-561, 590-596,
620-625 (Delay), 655-662 (Syscall).  `None` has no `tostr`; `None < 0` and `'..' < 0` raise; a value that is flagged as a
string and is none cannot be joined to the rest.  Floats are outside the model. -/
def DF.tostr : DF → Py Str
  | .none => .error .attribute
  | .term n => .ok (("(Terminal ".toList ++ (n.map (fun l => l.repr ++ ".".toList)).flatten).dropLast ++ ")".toList)
  | .intc s => .ok ("(IntConst ".toList ++ s ++ ")".toList)
  | .fltc s => .ok ("(FloatConst ".toList ++ s ++ ")".toList)
  | .strc s => .ok ("(StringConst ".toList ++ s ++ ")".toList)
  | .ev v w _ iss =>
    match v, iss with
    | .str s, true => .ok s
    | .int n, false =>
      .ok ((if n < 0 then "(-".toList else []) ++ widthStr w ++ "'d".toList ++ natStr n.natAbs ++
        (if n < 0 then ")".toList else []))
    | .flt _, false => .error .unmodelled
    | _, _ => .error .type
  | .undef w => .ok (widthStr w ++ "'d".toList ++ "x".toList)
  | .hiz w => .ok (widthStr w ++ "'d".toList ++ "z".toList)
  | .op o ns => do
    let cs ← DF.tostrList ns
    .ok (("(Operator ".toList ++ o.pyName ++ " Next:".toList ++ (cs.map (· ++ ",".toList)).flatten).dropLast ++ ")".toList)
  | .psel v m l => do
    let v' ← v.tostr
    let m' ← m.tostr
    let l' ← l.tostr
    .ok ("(Partselect".toList ++ " Var:".toList ++ v' ++ " MSB:".toList ++ m' ++ " LSB:".toList ++ l' ++ ")".toList)
  | .ptr v p => do
    let v' ← v.tostr
    let p' ← p.tostr
    .ok ("(Pointer".toList ++ " Var:".toList ++ v' ++ " PTR:".toList ++ p' ++ ")".toList)
  | .concat ns => do
    let cs ← DF.tostrList ns
    .ok (("(Concat".toList ++ " Next:".toList ++ (cs.map (· ++ ",".toList)).flatten).dropLast ++ ")".toList)
  | .branch c t f => do
    let c' ← dumpPart " Cond:".toList c c.tostr
    let t' ← dumpPart " True:".toList t t.tostr
    let f' ← dumpPart " False:".toList f f.tostr
    .ok ("(Branch".toList ++ c' ++ t' ++ f' ++ ")".toList)
  | .delay n => do
    let n' ← dumpPart [] n n.tostr
    .ok ("(Delay ".toList ++ n' ++ ")".toList)
  | .sys s ns => do
    let cs ← DF.tostrList ns
    .ok (("(Syscall ".toList ++ s ++ " Next:".toList ++ (cs.map (· ++ ",".toList)).flatten).dropLast ++ ")".toList)
/-- The dumps of the operands. -/
def DF.tostrList : List DF → Py (List Str)
  | [] => .ok []
  | n :: ns => do
    let c ← n.tostr
    let cs ← DF.tostrList ns
    .ok (c :: cs)
end

/-- A part of the dump of a signal or an assignment: dataflow.py:703-706, 820-827. -/
def dumpField (word : Str) (t : DF) : Py Str :=
  dumpPart word t t.tostr

/-- dataflow.py:816-829 `Bind.tostr` (the destination is never None, dataflow.py:788). -/
def Bind.tostr (b : Bind) : Py Str := do
  let m ← dumpField " msb:".toList b.msb
  let l ← dumpField " lsb:".toList b.lsb
  let p ← dumpField " ptr:".toList b.ptr
  let t ← dumpField " tree:".toList b.tree
  .ok ("(Bind".toList ++ " dest:".toList ++ b.dest.repr ++ m ++ l ++ p ++ t ++ ")".toList)

/-- The names of the signal types (class names in ast.py, signaltype.py:22-63). -/
def TermType.name : TermType → Str
  | .input => "Input".toList | .output => "Output".toList | .inout => "Inout".toList | .wire => "Wire".toList
  | .reg => "Reg".toList | .integer => "Integer".toList | .genvar => "Genvar".toList | .parameter => "Parameter".toList
  | .localparam => "Localparam".toList | .function => "Function".toList | .rename => "Rename".toList
  | .real => "Real".toList | .tri => "Tri".toList | .supply => "Supply".toList

/-- Insertion into an ordered list. -/
def insertStr (x : Str) : List Str → List Str
  | [] => [x]
  | y :: ys => if strLe x y then x :: y :: ys else y :: insertStr x ys

/-- `str(sorted(termtype, key=lambda x: str(x)))`, dataflow.py:702: the text of a list of texts without quotes in them. -/
def typesDump (ts : List TermType) : Str :=
  let xs := ts.foldr (fun t l => insertStr t.name l) []
  "[".toList ++ (xs.map (fun x => "'".toList ++ x ++ "', ".toList)).flatten.dropLast.dropLast ++ "]".toList

/-- dataflow.py:709-710: the dimensions of an array. -/
def dimsDump : List (DF × DF) → Py Str
  | [] => .ok []
  | (l, r) :: ds => do
    let a ← l.tostr
    let b ← r.tostr
    let c ← dimsDump ds
    .ok ("[".toList ++ a ++ ":".toList ++ b ++ "]".toList ++ c)

/-- dataflow.py:707-710. -/
def dimsField : Option (List (DF × DF)) → Py Str
  | none => .ok []
  | some ds => do
    let x ← dimsDump ds
    .ok (" dims:".toList ++ x)

/-- dataflow.py:700-712 `Term.tostr`. -/
def Term.tostr (t : Term) : Py Str := do
  let m ← dumpField " msb:".toList t.msb
  let l ← dumpField " lsb:".toList t.lsb
  let d ← dimsField t.dims
  .ok ("(Term name:".toList ++ t.name.repr ++ " type:".toList ++ typesDump t.types ++ m ++ l ++ d ++ ")".toList)

/-- splitter.py:59-63: the condition is taken for a test of the reset; a condition without a dump raises (here: false). -/
def isResetCond (c : DF) : Bool :=
  match c.tostr with
  | .ok s => isResetName s
  | .error _ => false

end Pyv
