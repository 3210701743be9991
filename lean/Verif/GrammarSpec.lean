import Verif.Ast
import Verif.Lexer
/-
  A specification, independent of the parser: the expression grammar of Verilog, layered by the strength of the
  operators (IEEE 1364-2005, 5.1.2 table 5-4 and annex A.8), with the constants, names, selects, concatenations and
  calls that pyverilog/vparser/parser.py:949-1295, 2054-2084, 2156-2173 and 2227-2240 know.
-/
namespace Pyv

/-- The binary operators of Verilog with the classes of pyverilog/vparser/ast.py they stand for, from the weakest layer
to the strongest. -/
def layers : List (List (Pun × Op)) :=
  [ [(.lor, .lor)], [(.land, .land)], [(.or, .or)], [(.xor, .xor), (.xnor, .xnor)], [(.and, .and)],
    [(.eq, .eq), (.ne, .notEq), (.eql, .eql), (.nel, .notEql)],
    [(.lt, .lessThan), (.gt, .greaterThan), (.le, .lessEq), (.ge, .greaterEq)],
    [(.lshift, .sll), (.rshift, .srl), (.lshifta, .sla), (.rshifta, .sra)],
    [(.plus, .plus), (.minus, .minus)],
    [(.times, .times), (.divide, .divide), (.mod, .mod)],
    [(.power, .power)] ]

/-- The operator written `k` stands for class `o` and belongs to layer `l` (1 is the weakest). -/
def InLayer (l : Nat) (k : Pun) (o : Op) : Prop := 1 ≤ l ∧ ∃ ops, layers[l - 1]? = some ops ∧ (k, o) ∈ ops

/-- The prefix operators; `+` has no class. -/
def prefixes : List (Pun × Option Op) :=
  [ (.plus, none), (.minus, some .uminus), (.lnot, some .ulnot), (.not, some .unot), (.and, some .uand),
    (.nand, some .unand), (.or, some .uor), (.nor, some .unor), (.xor, some .uxor), (.xnor, some .uxnor) ]

/-- What a prefix operator makes of its operand. -/
def prefixed : Option Op → Ex → Ex
  | none, e => e
  | some o, e => .un o e

/-- The phrases of the grammar. -/
inductive Phrase where
  /-- An expression whose outermost operator, outside parentheses, is at least as strong as layer `l`; layer 0 has the
  conditional operator, layer 12 the prefix operators and the operands. -/
  | expr (l : Nat) (e : Ex)
  /-- A name with its indices: what an index or a part select can be applied to. -/
  | base (e : Ex)
  /-- The operands of a concatenation. -/
  | items (es : List Ex)
  /-- The arguments of a call. -/
  | args (es : List Ex)

/-- The grammar: the phrase is written with these tokens. -/
inductive Derives : Phrase → List Tok → Prop
  | int (s) : Derives (.expr 12 (.intc s)) [.int s]
  | flt (s) : Derives (.expr 12 (.fltc s)) [.flt s]
  | str (s) : Derives (.expr 12 (.strc (s.drop 1).dropLast)) [.str s]
  | name (sc : List Str) (n : Str) :
      Derives (.base (.ident sc n)) (sc.flatMap (fun l => [Tok.id l, .p .dot]) ++ [.id n])
  | index {v i ts us} : Derives (.base v) ts → Derives (.expr 0 i) us →
      Derives (.base (.ptr v i)) (ts ++ .p .lbracket :: (us ++ [.p .rbracket]))
  | operand {v ts} : Derives (.base v) ts → Derives (.expr 12 v) ts
  | part {v m l ts us ws} : Derives (.base v) ts → Derives (.expr 0 m) us → Derives (.expr 0 l) ws →
      Derives (.expr 12 (.psel v m l)) (ts ++ .p .lbracket :: (us ++ .p .colon :: (ws ++ [.p .rbracket])))
  /-- `v[m +: l]` is read as `v[m : m + l]` (parser.py:1218-1223; the upper bound of Verilog is `m + l - 1`). -/
  | partUp {v m l ts us ws} : Derives (.base v) ts → Derives (.expr 0 m) us → Derives (.expr 0 l) ws →
      Derives (.expr 12 (.psel v m (.bin .plus m l)))
        (ts ++ .p .lbracket :: (us ++ .p .pluscolon :: (ws ++ [.p .rbracket])))
  /-- `v[m -: l]` is read as `v[m : m - l]` (parser.py:1224-1228). -/
  | partDown {v m l ts us ws} : Derives (.base v) ts → Derives (.expr 0 m) us → Derives (.expr 0 l) ws →
      Derives (.expr 12 (.psel v m (.bin .minus m l)))
        (ts ++ .p .lbracket :: (us ++ .p .minuscolon :: (ws ++ [.p .rbracket])))
  | paren {e ts} : Derives (.expr 0 e) ts → Derives (.expr 12 e) (.p .lparen :: (ts ++ [.p .rparen]))
  | item {e ts} : Derives (.expr 0 e) ts → Derives (.items [e]) ts
  | items {es e ts us} : Derives (.items es) ts → Derives (.expr 0 e) us →
      Derives (.items (es ++ [e])) (ts ++ .p .comma :: us)
  | concat {es ts} : Derives (.items es) ts → Derives (.expr 12 (.concat es)) (.p .lbrace :: (ts ++ [.p .rbrace]))
  | repeated {t es ts us} : Derives (.expr 0 t) ts → Derives (.items es) us →
      Derives (.expr 12 (.rep t (.concat es)))
        (.p .lbrace :: (ts ++ .p .lbrace :: (us ++ [.p .rbrace, .p .rbrace])))
  /-- No argument; since parser.py:2171 has the empty list as a `func_args` of its own, a list may begin with a
  comma. -/
  | noArg : Derives (.args []) []
  | arg {e ts} : Derives (.expr 0 e) ts → Derives (.args [e]) ts
  | args {es e ts us} : Derives (.args es) ts → Derives (.expr 0 e) us →
      Derives (.args (es ++ [e])) (ts ++ .p .comma :: us)
  | call {f es ts} : Derives (.args es) ts →
      Derives (.expr 12 (.call f es)) (.id f :: .p .lparen :: (ts ++ [.p .rparen]))
  | sysPlain (f) : Derives (.expr 12 (.sys f [])) [.p .doller, .id f]
  | sys {f es ts} : Derives (.args es) ts →
      Derives (.expr 12 (.sys f es)) (.p .doller :: .id f :: .p .lparen :: (ts ++ [.p .rparen]))
  | signed {es ts} : Derives (.args es) ts →
      Derives (.expr 12 (.sys "signed".toList es))
        (.p .doller :: .kw "signed".toList :: .p .lparen :: (ts ++ [.p .rparen]))
  /-- Prefix operators bind strongest and nest. -/
  | un {k o e ts} : (k, o) ∈ prefixes → Derives (.expr 12 e) ts → Derives (.expr 12 (prefixed o e)) (.p k :: ts)
  /-- Binary operators are left associative: the right operand comes from a stronger layer. -/
  | bin {l k o a b ts us} : InLayer l k o → Derives (.expr l a) ts → Derives (.expr (l + 1) b) us →
      Derives (.expr l (.bin o a b)) (ts ++ .p k :: us)
  /-- The conditional operator is the weakest and right associative. -/
  | cond {c t f ts us ws} : Derives (.expr 1 c) ts → Derives (.expr 0 t) us → Derives (.expr 0 f) ws →
      Derives (.expr 0 (.cond c t f)) (ts ++ .p .cond :: (us ++ .p .colon :: ws))
  | stronger {l e ts} : l < 12 → Derives (.expr (l + 1) e) ts → Derives (.expr l e) ts

end Pyv
