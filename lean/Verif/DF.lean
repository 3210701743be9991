import Verif.Scope
/-
  Dataflow trees: pyverilog/dataflow/dataflow.py:46-686, and the operator names of
  pyverilog/utils/op2mark.py.
-/
namespace Pyv

/-- The operator names: keys of op2mark.py:10-20 `operator_mark`.  (`DFOperator.operator` is a Python string;
the analyzer only ever creates these, from the class names of vparser/ast.py operators.) -/
inductive Op where
  | uminus | ulnot | unot | uand | unand | uor | unor | uxor | uxnor
  | power | times | divide | mod | plus | minus
  | sll | srl | sla | sra
  | lessThan | greaterThan | lessEq | greaterEq
  | eq | notEq | eql | notEql
  | and | xor | xnor | or | land | lor
  deriving DecidableEq, Repr

/-- op2mark.py:10-20 `operator_mark`. -/
def Op.mark : Op → Str
  | .uminus => "-".toList | .ulnot => "!".toList | .unot => "~".toList | .uand => "&".toList
  | .unand => "~&".toList | .uor => "|".toList | .unor => "~|".toList | .uxor => "^".toList
  | .uxnor => "~^".toList | .power => "**".toList | .times => "*".toList | .divide => "/".toList
  | .mod => "%".toList | .plus => "+".toList | .minus => "-".toList | .sll => "<<".toList
  | .srl => ">>".toList | .sla => "<<<".toList | .sra => ">>>".toList | .lessThan => "<".toList
  | .greaterThan => ">".toList | .lessEq => "<=".toList | .greaterEq => ">=".toList | .eq => "==".toList
  | .notEq => "!=".toList | .eql => "===".toList | .notEql => "!==".toList | .and => "&".toList
  | .xor => "^".toList | .xnor => "~^".toList | .or => "|".toList | .land => "&&".toList
  | .lor => "||".toList

/-- op2mark.py:29-43 `operator_order`. -/
def Op.order : Op → Nat
  | .uminus | .ulnot | .unot | .uand | .unand | .uor | .unor | .uxor | .uxnor => 0
  | .power => 1
  | .times | .divide | .mod => 2
  | .plus | .minus => 3
  | .sll | .srl | .sla | .sra => 4
  | .lessThan | .greaterThan | .lessEq | .greaterEq => 5
  | .eq | .notEq | .eql | .notEql => 6
  | .and => 7
  | .xor | .xnor => 8
  | .or => 9
  | .land => 10
  | .lor => 11

/-- The unary operators. -/
def Op.unary : Op → Bool
  | .uminus | .ulnot | .unot | .uand | .unand | .uor | .unor | .uxor | .uxnor => true
  | _ => false

/-- optimizer.py:22, signaltype.py:88 `compare_ops`: the tuple contains the misspelt 'LassEq' instead of
'LessEq', so `LessEq` is not a member. -/
def Op.compare : Op → Bool
  | .lessThan | .greaterThan | .greaterEq | .eq | .notEq | .eql | .notEql => true
  | _ => false

/-- Dataflow nodes: dataflow.py:46-686, one constructor per class; `none` is Python's `None` in a place where
a node is expected.  `DFEvalValue` carries value, width, isfloat, isstring (dataflow.py:485-489).  The abstract
classes DFNode, DFConstant, DFNotTerminal are never instantiated. -/
inductive DF where
  | none
  | term (name : ScopeChain)
  | intc (s : Str)
  | fltc (s : Str)
  | strc (s : Str)
  | ev (v : PyVal) (w : Option Int) (isf iss : Bool)
  | undef (w : Option Int)
  | hiz (w : Option Int)
  | op (o : Op) (ns : List DF)
  | psel (v m l : DF)
  | ptr (v p : DF)
  | concat (ns : List DF)
  | branch (c t f : DF)
  | delay (n : DF)
  | sys (name : Str) (ns : List DF)
  deriving Repr

/-- `DFEvalValue(n, w)` with an int value. -/
@[reducible] def DF.evi (n : Int) (w : Option Int) : DF := .ev (.int n) w false false

/-- Structural induction over dataflow trees with the list cases stated by membership. -/
theorem DF.ind {P : DF → Prop}
    (none : P .none) (term : ∀ n, P (.term n)) (intc : ∀ s, P (.intc s)) (fltc : ∀ s, P (.fltc s))
    (strc : ∀ s, P (.strc s)) (ev : ∀ v w a b, P (.ev v w a b)) (undef : ∀ w, P (.undef w))
    (hiz : ∀ w, P (.hiz w))
    (op : ∀ o ns, (∀ n ∈ ns, P n) → P (.op o ns))
    (psel : ∀ v m l, P v → P m → P l → P (.psel v m l))
    (ptr : ∀ v p, P v → P p → P (.ptr v p))
    (concat : ∀ ns, (∀ n ∈ ns, P n) → P (.concat ns))
    (branch : ∀ c t f, P c → P t → P f → P (.branch c t f))
    (delay : ∀ n, P n → P (.delay n))
    (sys : ∀ s ns, (∀ n ∈ ns, P n) → P (.sys s ns)) (t : DF) : P t :=
  DF.rec (motive_1 := P) (motive_2 := fun ns => ∀ n ∈ ns, P n)
    none term intc fltc strc ev undef hiz (fun o ns h => op o ns h) psel ptr (fun ns h => concat ns h) branch
    delay (fun s ns h => sys s ns h) (by simp)
    (fun h t hh ht => by intro n hn; rcases List.mem_cons.mp hn with rfl | h'; exact hh; exact ht n h') t

mutual
/-- Node equality `__eq__` (dataflow.py:107-110, 136-139, 257-260, 306-309, 345-348, 385-388, 471-476, 529-535,
567-570, 602-605, 678-683).  Simplification: terminal names are compared structurally (by C02_eq_concrete this
is what `ScopeChain.__eq__` does on names without wildcards), int/float values of different Python types are
different, and DFDelay compares its child instead of raising AttributeError (dataflow.py:639). -/
def DF.beq : DF → DF → Bool
  | .none, .none => true
  | .term a, .term b => decide (a = b)
  | .intc a, .intc b => decide (a = b)
  | .fltc a, .fltc b => decide (a = b)
  | .strc a, .strc b => decide (a = b)
  | .ev v w a b, .ev v' w' a' b' => decide (v = v' ∧ w = w' ∧ a = a' ∧ b = b')
  | .undef a, .undef b => decide (a = b)
  | .hiz a, .hiz b => decide (a = b)
  | .op o ns, .op o' ns' => decide (o = o') && DF.beqList ns ns'
  | .psel v m l, .psel v' m' l' => DF.beq v v' && DF.beq m m' && DF.beq l l'
  | .ptr v p, .ptr v' p' => DF.beq v v' && DF.beq p p'
  | .concat ns, .concat ns' => DF.beqList ns ns'
  | .branch c t f, .branch c' t' f' => DF.beq c c' && DF.beq t t' && DF.beq f f'
  | .delay n, .delay n' => DF.beq n n'
  | .sys s ns, .sys s' ns' => decide (s = s') && DF.beqList ns ns'
  | _, _ => false
/-- Tuple equality of child lists. -/
def DF.beqList : List DF → List DF → Bool
  | [], [] => true
  | a :: as, b :: bs => DF.beq a b && DF.beqList as bs
  | _, _ => false
end

theorem DF.beqList_iff {ns ms : List DF} (h : ∀ n ∈ ns, ∀ m, DF.beq n m = true ↔ n = m) :
    DF.beqList ns ms = true ↔ ns = ms := by
  induction ns generalizing ms with
  | nil => cases ms <;> simp [DF.beqList]
  | cons a as ih =>
    cases ms with
    | nil => simp [DF.beqList]
    | cons b bs =>
      simp [DF.beqList, h a (by simp) b, ih (fun n hn => h n (by simp [hn]))]

/-- Node equality is structural equality. -/
theorem DF.beq_iff (a b : DF) : DF.beq a b = true ↔ a = b := by
  induction a using DF.ind generalizing b with
  | none => cases b <;> simp [DF.beq]
  | term n => cases b <;> simp [DF.beq]
  | intc n => cases b <;> simp [DF.beq]
  | fltc n => cases b <;> simp [DF.beq]
  | strc n => cases b <;> simp [DF.beq]
  | ev v w x y => cases b <;> simp [DF.beq]
  | undef n => cases b <;> simp [DF.beq]
  | hiz n => cases b <;> simp [DF.beq]
  | op o ns ih => cases b <;> simp [DF.beq, DF.beqList_iff ih]
  | psel v m l h1 h2 h3 => cases b <;> simp [DF.beq, h1, h2, h3, and_assoc]
  | ptr v m h1 h2 => cases b <;> simp [DF.beq, h1, h2]
  | concat ns ih => cases b <;> simp [DF.beq, DF.beqList_iff ih]
  | branch v m l h1 h2 h3 => cases b <;> simp [DF.beq, h1, h2, h3, and_assoc]
  | delay n h => cases b <;> simp [DF.beq, h]
  | sys s ns ih => cases b <;> simp [DF.beq, DF.beqList_iff ih]

instance : DecidableEq DF := fun a b =>
  if h : DF.beq a b = true then isTrue ((DF.beq_iff a b).mp h)
  else isFalse (fun e => h ((DF.beq_iff a b).mpr e))

/-- dataflow.py:221-227 `DFOperator.__init__`: rejects a missing operand. -/
def DF.mkOp (o : Op) (ns : List DF) : Py DF :=
  if DF.none ∈ ns then .error .definition else .ok (.op o ns)

/-- `isinstance(node, DFEvalValue)`. -/
def DF.isEv : DF → Bool
  | .ev .. => true
  | _ => false

mutual
/-- The signals occurring anywhere in a tree, left to right, with repetitions (a specification, used by C10,
C17, C28, C34, C35). -/
def DF.terms : DF → List ScopeChain
  | .term n => [n]
  | .op _ ns => DF.termsList ns
  | .psel v m l => v.terms ++ m.terms ++ l.terms
  | .ptr v p => v.terms ++ p.terms
  | .concat ns => DF.termsList ns
  | .branch c t f => c.terms ++ t.terms ++ f.terms
  | .delay n => n.terms
  | .sys _ ns => DF.termsList ns
  | _ => []
/-- The signals of a list of trees. -/
def DF.termsList : List DF → List ScopeChain
  | [] => []
  | n :: ns => n.terms ++ DF.termsList ns
end

theorem DF.mem_termsList {x : ScopeChain} {ns : List DF} : x ∈ DF.termsList ns ↔ ∃ n ∈ ns, x ∈ n.terms := by
  induction ns with
  | nil => simp [DF.termsList]
  | cons n ns ih => simp [DF.termsList, ih]

/-- dataflow.py:491-503 / 547-553 / 582-588: the width prefix of a printed constant. -/
def widthStr (w : Option Int) : Str :=
  match w with
  | some 32 => []
  | some n => intStr n
  | Option.none => "None".toList

mutual
/-- `tocode(dest)` of every node class: dataflow.py:93-98 (Terminal), 55/122-123 (constants, via repr), 240-249
(Operator), 285-294 (Partselect), 332-335 (Pointer), 371-377 (Concat), 416-435 (Branch with always=''),
519-520/491-503 (EvalValue), 547-553, 582-588, 627-628 (Delay: raises), 664-670 (Syscall).
`d` is `dest`.  Floats are printed as their text; a None value or node raises. -/
def DF.tocode (d : Str) : DF → Py Str
  | .none => .error .attribute
  | .term n => .ok n.tocode
  | .intc s => .ok s
  | .fltc s => .ok s
  | .strc s => .ok s
  | .ev v w _ iss =>
    match v, iss with
    | .str s, true => .ok s
    | .int n, false =>
      .ok ((if n < 0 then "(-".toList else []) ++ widthStr w ++ "'d".toList ++ natStr n.natAbs ++
        (if n < 0 then ")".toList else []))
    | .flt s, false => .ok (widthStr w ++ "'d".toList ++ s)
    | _, _ => .error .type
  | .undef w => .ok (widthStr w ++ "'dx".toList)
  | .hiz w => .ok (widthStr w ++ "'dz".toList)
  | .op o ns => do
    let cs ← DF.tocodeList d ns
    match cs with
    | a :: b :: _ => .ok ("(".toList ++ a ++ o.mark ++ b ++ ")".toList)
    | [a] => .ok ("(".toList ++ o.mark ++ a ++ ")".toList)
    | [] => .error .index
  | .psel v m l => do
    let v' ← v.tocode d
    let m' ← m.tocode d
    let l' ← l.tocode d
    if m' = l' then .ok (v' ++ "[".toList ++ m' ++ "]".toList)
    else .ok (v' ++ "[".toList ++ m' ++ ":".toList ++ l' ++ "]".toList)
  | .ptr v p => do
    let v' ← v.tocode d
    let p' ← p.tocode d
    .ok (v' ++ "[".toList ++ p' ++ "]".toList)
  | .concat ns => do
    let cs ← DF.tocodeList d ns
    .ok (("{".toList ++ (cs.map (· ++ ",".toList)).flatten).dropLast ++ "}".toList)
  | .branch c t f => do
    let c' ← match c with | .none => .ok [] | c => do let x ← c.tocode d; .ok ("(".toList ++ x ++ ")".toList)
    let t' ← match t with | .none => .ok d | t => t.tocode d
    let f' ← match f with | .none => .ok d | f => f.tocode d
    .ok ("(".toList ++ c' ++ "? ".toList ++ t' ++ " : ".toList ++ f' ++ ")".toList)
  | .delay _ => .error .definition
  | .sys s ns => do
    let cs ← DF.tocodeList d ns
    .ok (("$".toList ++ s ++ "(".toList ++ (cs.map (· ++ ",".toList)).flatten).dropLast ++ ")".toList)
/-- Codes of a list of nodes. -/
def DF.tocodeList (d : Str) : List DF → Py (List Str)
  | [] => .ok []
  | n :: ns => do
    let c ← n.tocode d
    let cs ← DF.tocodeList d ns
    .ok (c :: cs)
end

end Pyv
