import Verif.ActiveRange
import Verif.Props.TransitionProps
/-
  C92, C93, specification: the values described by active conditions.
-/
namespace Pyv

/-- The value belongs to a pair of bounds: an upper bound None is no bound; with the lower bound None there are no values. -/
def ARange.Has (p : ARange) (x : Int) : Prop := (∃ lo, p.1 = some lo ∧ lo ≤ x) ∧ ∀ hi, p.2 = some hi → x ≤ hi

/-- The value belongs to one of the pairs of a term. -/
def ATerm.Has (t : ATerm) (x : Int) : Prop := ∃ p ∈ t.ranges, ARange.Has p x

/-- The signal `n` has a value that belongs to the term at position `r`. -/
def TermIs (h : AHeap) (ρ : Env) (n : ScopeChain) (r : Nat) : Prop :=
  ∃ t, h[r]? = some t ∧ ∃ x w, ρ.sig n = some (x, w) ∧ t.Has x

/-- A condition is true: all its terms are. -/
def CondIs (h : AHeap) (ρ : Env) (c : ACond) : Prop := ∀ p ∈ c, TermIs h ρ p.1 p.2

/-- The signals of known width have values of that width. -/
def InWidth (ρ : Env) (width : ScopeChain → Py Nat) : Prop :=
  ∀ n w, width n = .ok w → ∃ x b, ρ.sig n = some (x, b) ∧ 0 ≤ x ∧ x ≤ 2 ^ w - 1

/-! ### The conditions covered by the theorem -/

/-- What the code makes of a condition: a term, a conjunction of terms, or a disjunction of conjunctions. -/
inductive AKind where
  | term | cond | list
  deriving DecidableEq

/-- A comparison `x o c` that is true for some values of `w` bits and false for others. -/
def properCmp (o : Op) (c : Int) (w : Nat) : Bool :=
  match o with
  | .lessThan => decide (0 < c ∧ c ≤ 2 ^ w - 1)
  | .greaterThan => decide (0 ≤ c ∧ c < 2 ^ w - 1)
  | .greaterEq => decide (0 < c ∧ c ≤ 2 ^ w - 1)
  | .eq => decide (0 ≤ c ∧ c ≤ 2 ^ w - 1 ∧ 0 < w)
  | .eql => decide (0 ≤ c ∧ c ≤ 2 ^ w - 1 ∧ 0 < w)
  | _ => false

/-- The comparison of a signal with a constant. -/
def atomKind (width : ScopeChain → Py Nat) (o : Op) (n : ScopeChain) (c : Int) : Option AKind :=
  match width n with
  | .ok w => if properCmp o c w then some .term else none
  | _ => none

/-- The comparison with exchanged sides. -/
def mirrored : Op → Option Op
  | .greaterThan => some .lessThan
  | .lessThan => some .greaterThan
  | .lessEq => some .greaterEq
  | .eq => some .eq
  | .eql => some .eql
  | _ => none

/-- A negated condition: no disjunction, no signal twice. -/
def negKind (names : List ScopeChain) : AKind → Option AKind
  | .term => if names.Nodup then some .term else none
  | .cond => if names.Nodup then some .list else none
  | .list => none

/-- A conjunction; if the right side is a disjunction and the left side more than one term, they have no signal in common. -/
def conjKind (l r : List ScopeChain) : AKind → AKind → Option AKind
  | .cond, .list => if ∀ n ∈ l, n ∉ r then some .list else none
  | .list, .list => if ∀ n ∈ l, n ∉ r then some .list else none
  | .list, _ => some .list
  | _, .list => some .list
  | _, _ => some .cond

/-- The comparison of a condition with 0 or 1. -/
def eqKind (names : List ScopeChain) (o : Op) (c : Int) (k : AKind) : Option AKind :=
  if (o = .eq ∧ c = 1) ∨ (o = .notEq ∧ c = 0) then some k
  else if (o = .eq ∧ c = 0) ∨ (o = .notEq ∧ c = 1) then negKind names k
  else none

/-- A condition whose value is 0 or 1. -/
def boolish : DF → Bool
  | .op o [l, r] => if o = .and ∨ o = .or then boolish l && boolish r else true
  | .op _ _ => true
  | _ => false

/-- A comparison: of a signal with a constant, or of a condition with 0 or 1. -/
def cmpKind (width : ScopeChain → Py Nat) (o : Op) (l r : DF) (kl kr : Option AKind) : Option AKind :=
  match l, r with
  | .term n, .ev (.int c) _ _ _ => atomKind width o n c
  | .ev (.int c) _ _ _, .term n => (mirrored o).bind (fun o' => atomKind width o' n c)
  | .op _ _, .ev (.int c) _ _ _ => if boolish l then kl.bind (eqKind l.terms o c) else none
  | .ev (.int c) _ _ _, .op _ _ => if boolish r then kr.bind (eqKind r.terms o c) else none
  | _, _ => none

/-- The conditions that the code reads as they are meant: comparisons of signals with constants, under `!`, `&&`, `||`, `|`, and `&`
between conditions with the values 0 and 1. -/
def rangeKind (width : ScopeChain → Py Nat) : DF → Option AKind
  | .term n => atomKind width .greaterThan n 0
  | .op o [x] => if o = .ulnot then (rangeKind width x).bind (negKind x.terms) else none
  | .op o [l, r] =>
    if o = .lor ∨ o = .or then (rangeKind width l).bind (fun _ => (rangeKind width r).bind (fun _ => some .list))
    else if o = .land ∨ (o = .and ∧ boolish l ∧ boolish r) then
      (rangeKind width l).bind (fun a => (rangeKind width r).bind (fun b => conjKind l.terms r.terms a b))
    else cmpKind width o l r (rangeKind width l) (rangeKind width r)
  | _ => none

/-- A list of conditions, read from the left; `seen` are the signals of the conditions before. -/
def listKind (width : ScopeChain → Py Nat) (seen : List ScopeChain) : AKind → List DF → Option AKind
  | k, [] => some k
  | k, c :: cs => (rangeKind width c).bind (fun b => (conjKind seen c.terms k b).bind (fun k' => listKind width (seen ++ c.terms) k' cs))

/-- A list of conditions that the code reads as they are meant. -/
def listsOK (width : ScopeChain → Py Nat) : List DF → Bool
  | [] => false
  | c :: cs => ((rangeKind width c).bind (fun k => listKind width c.terms k cs)).isSome

end Pyv
