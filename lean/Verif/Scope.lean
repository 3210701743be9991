import Verif.Py
/-
  Model of pyverilog/utils/scope.py and of the name helpers of pyverilog/utils/util.py.
-/
namespace Pyv

/-- The scope types: pyverilog/utils/scope.py:15-18 (`scopetype_list`). -/
inductive ScopeType where
  | generate | always | function | task | taskcall | initial | for_ | while_ | if_
  | module | block | signal | functioncall | any
  deriving DecidableEq, Repr

/-- scope.py:15-16 `scopetype_list_unprint`. -/
def ScopeType.unprint : ScopeType → Bool
  | .generate | .always | .function | .task | .taskcall | .initial | .for_ | .while_ | .if_ => true
  | _ => false

/-- scope.py:17 `scopetype_list_print`. -/
def ScopeType.print : ScopeType → Bool
  | .module | .block | .signal | .functioncall => true
  | _ => false

/-- scope.py:21-27 `class ScopeLabel`.  `scopeloop` is an int or None. -/
structure ScopeLabel where
  name : Str
  type : ScopeType
  loop : Option Int
  deriving DecidableEq, Repr

/-- scope.py:43-49 `ScopeLabel.__eq__` (both arguments being ScopeLabels). -/
def ScopeLabel.pyEq (a b : ScopeLabel) : Bool :=
  if a.type = .any ∨ b.type = .any then
    decide ((a.name, a.loop) = (b.name, b.loop))
  else
    decide ((a.name, a.type, a.loop) = (b.name, b.type, b.loop))

/-- scope.py:54-56 `ScopeLabel.__hash__`: Python's tuple hash is a function of the tuple, so the hash is
modelled by an arbitrary function `h` applied to this key. -/
def ScopeLabel.hashKey (a : ScopeLabel) : Str × Option Int := (a.name, a.loop)

/-- scope.py:38-41 `ScopeLabel.tocode`. -/
def ScopeLabel.tocode (a : ScopeLabel) : Str := if a.type.unprint then [] else a.name

/-- scope.py:58-59 `ScopeLabel.isPrintable`. -/
def ScopeLabel.isPrintable (a : ScopeLabel) : Bool := a.type.print || decide (a.type = .any)

/-- scope.py:62-66 `class ScopeChain`: its list of labels. -/
abbrev ScopeChain := List ScopeLabel

/-- scope.py:120-123 `ScopeChain.__eq__`: Python list equality, element by element with `__eq__`
(CPython compares identity first; `__eq__` is reflexive, so that shortcut changes nothing). -/
def ScopeChain.pyEq : ScopeChain → ScopeChain → Bool
  | [], [] => true
  | a :: as, b :: bs => a.pyEq b && ScopeChain.pyEq as bs
  | _, _ => false

/-- scope.py:128-129 `ScopeChain.__hash__`: hash of the tuple of label hashes. -/
def ScopeChain.hashKey (c : ScopeChain) : List (Str × Option Int) := c.map ScopeLabel.hashKey

/-- Decimal digits of a natural number, as Python's `str(int)`. -/
def natStr (n : Nat) : Str := (Nat.toDigits 10 n)

/-- Python's `str(int)`. -/
def intStr (n : Int) : Str := if n < 0 then '-' :: natStr n.natAbs else natStr n.natAbs

/-- scope.py:97-102: the loop suffix passed on by a scope label. -/
def ScopeLabel.suffix (s : ScopeLabel) : Option Str :=
  match s.type, s.loop with
  | .for_, some n => some ('_' :: intStr n ++ ['_'])
  | _, _ => none

/-- The loop body of scope.py:84-102 `ScopeChain.tocode`: `it` carries the loop suffix to the next scope;
the result is the list `ret` (whose last element is dropped by the caller, scope.py:103). -/
def ScopeChain.tocodeParts : Option Str → ScopeChain → List Str
  | _, [] => []
  | it, s :: rest =>
    let l := s.tocode
    let p1 := if l ≠ [] then [l] else []
    let p2 := match it with | some x => [x] | none => []
    let p3 := if l ≠ [] then [['_']] else []
    p1 ++ p2 ++ p3 ++ ScopeChain.tocodeParts s.suffix rest

/-- scope.py:84-104 `ScopeChain.tocode`; also util.py:49-54 `toFlatname`. -/
def ScopeChain.tocode (c : ScopeChain) : Str := (ScopeChain.tocodeParts none c).dropLast.flatten

/-- util.py:18-25,36-42 `toTermname` on a list of names: labels of type 'any' without loop. -/
def toTermnameList (ns : List Str) : ScopeChain := ns.map (fun n => ⟨n, .any, none⟩)

/-- Python's `str.split('.')` (generic separator character). -/
def splitOn (sep : Char) : Str → List Str
  | [] => [[]]
  | c :: cs =>
    if c = sep then [] :: splitOn sep cs
    else match splitOn sep cs with
      | [] => [[c]]
      | w :: ws => (c :: w) :: ws

/-- util.py:28-33 `toTermname_str`. -/
def toTermname (s : Str) : ScopeChain := toTermnameList (splitOn '.' s)

/-- util.py:45-46 `getScope`: `termname[:-1]`. -/
def getScope (c : ScopeChain) : ScopeChain := c.dropLast

/-- util.py:67-70 `isTopmodule`. -/
def isTopmodule (c : ScopeChain) : Bool := c.length == 1

/-- Joining names with dots: what `str(scopechain)` prints for loop-free chains (scope.py:109-115), and how
a user writes a hierarchical name. -/
def dotJoin : List Str → Str
  | [] => []
  | [w] => w
  | w :: ws => w ++ '.' :: dotJoin ws

/-- util.py:86-87 `maxValue`. -/
def maxValue (width : Nat) : Int := 2 ^ width - 1

end Pyv
