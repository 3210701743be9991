import Verif.Codegen
import Verif.LexSpec
/-
  Specification for the code generator: which expression trees are expected to survive a print and a parse.
-/
namespace Pyv

mutual
/-- The tree without its unary plus operators, which template/uplus.txt does not print and parser.py:954-956 drops. -/
def Ex.erase : Ex → Ex
  | .uplus e => e.erase
  | .un o e => .un o e.erase
  | .bin o a b => .bin o a.erase b.erase
  | .cond c t f => .cond c.erase t.erase f.erase
  | .psel v m l => .psel v.erase m.erase l.erase
  | .ptr v p => .ptr v.erase p.erase
  | .concat es => .concat (Ex.erases es)
  | .rep t v => .rep t.erase v.erase
  | .call f es => .call f (Ex.erases es)
  | .sys f es => .sys f (Ex.erases es)
  | e => e
/-- `Ex.erase` on lists. -/
def Ex.erases : List Ex → List Ex
  | [] => []
  | e :: es => e.erase :: Ex.erases es
end

/-- What may be indexed in Verilog: a name, or an element of an array. -/
def Ex.isBase : Ex → Bool
  | .ident _ _ => true
  | .ptr v _ => v.isBase
  | _ => false

/-- A concatenation. -/
def Ex.isConcat : Ex → Bool
  | .concat _ => true
  | _ => false

/-- The unary operator with which the printed text of an expression without outer parentheses begins. -/
def Ex.leadUn : Ex → Option Op
  | .un o _ => some o
  | .bin o a _ => if a.stripLeft o then a.leadUn else none
  | _ => none

mutual
/-- The bound of a part select can be printed without spaces: no escaped name, no string with a space, and no `&` (`|`)
in front of an operand that begins with the unary `&` (`|`). -/
def Ex.Tight : Ex → Prop
  | .ident sc n => ∀ l ∈ n :: sc, l.head? ≠ some '\\'
  | .intc _ => True
  | .fltc _ => True
  | .strc s => ' ' ∉ s
  | .uplus e => e.Tight
  | .un _ e => e.Tight
  | .bin o a b => a.Tight ∧ b.Tight ∧
      (b.stripRight o = true → ¬ (o = .and ∧ b.leadUn = some .uand) ∧ ¬ (o = .or ∧ b.leadUn = some .uor))
  | .cond c t f => c.Tight ∧ t.Tight ∧ f.Tight
  | .psel v m l => v.Tight ∧ m.Tight ∧ l.Tight
  | .ptr v p => v.Tight ∧ p.Tight
  | .concat es => Ex.Tights es
  | .rep t v => t.Tight ∧ v.Tight
  | .call f es => f.head? ≠ some '\\' ∧ Ex.Tights es
  | .sys f es => f.head? ≠ some '\\' ∧ Ex.Tights es
/-- `Ex.Tight` on lists. -/
def Ex.Tights : List Ex → Prop
  | [] => True
  | e :: es => e.Tight ∧ Ex.Tights es
end

mutual
/-- The Verilog expressions: names and literals are spelt as Verilog requires, operators have their arity, only names
and array elements are indexed, a concatenation is not empty and a repetition repeats a concatenation.  Excluded, since
the property fails for them (see the counterexamples): `<<<` and part select bounds that are not `Tight`. -/
def Ex.WF : Ex → Prop
  | .ident sc n => ∀ l ∈ n :: sc, IsName l
  | .intc s => IntLit s
  | .fltc s => FloatLit s
  | .strc s => StrBody s
  | .uplus e => e.WF
  | .un o e => o.unary = true ∧ e.WF
  | .bin o a b => o.unary = false ∧ o ≠ .sla ∧ a.WF ∧ b.WF
  | .cond c t f => c.WF ∧ t.WF ∧ f.WF
  | .psel v m l => v.isBase = true ∧ v.WF ∧ m.WF ∧ l.WF ∧ m.Tight ∧ l.Tight
  | .ptr v p => v.isBase = true ∧ v.WF ∧ p.WF
  | .concat es => es ≠ [] ∧ Ex.WFs es
  | .rep t v => v.isConcat = true ∧ t.WF ∧ v.WF
  | .call f es => IsName f ∧ Ex.WFs es
  | .sys f es => (IsName f ∨ (f = "signed".toList ∧ es ≠ [])) ∧ Ex.WFs es
/-- `Ex.WF` on lists. -/
def Ex.WFs : List Ex → Prop
  | [] => True
  | e :: es => e.WF ∧ Ex.WFs es
end

end Pyv
