import Verif.GrammarSpec
/-
  A specification, independent of the parser: the statement grammar of Verilog (IEEE 1364-2005, annex A.6, A.8.5) with
  the statements of pyverilog/vparser/parser.py:852-941, 1427-1472, 1499-1540, 1579-1733 that `Stmt` has.
-/
namespace Pyv

/-- The phrases of the statement grammar. -/
inductive SPhrase where
  /-- What is assigned to: a name, an element, a part, or a concatenation of these. -/
  | left (l : Ex)
  /-- The items of a concatenation that is assigned to. -/
  | lefts (ls : List Ex)
  /-- A statement; `o`: it ends with an if without else, so that an `else` after it would belong to that if. -/
  | stmt (o : Bool) (s : Stmt)
  /-- The statements of a block. -/
  | stmts (ss : List Stmt)
  /-- The alternatives of a case item. -/
  | alts (es : List Ex)
  /-- The items of a case statement: the alternatives of each (none for `default`) and its statement. -/
  | items (cs : List (Option (List Ex))) (ss : List Stmt)

/-- The words of a case statement. -/
def caseWords : CaseKind → List Tok
  | .case_ => [.kw "case".toList]
  | .casex => [.kw "casex".toList]
  | .casez => [.kw "casez".toList]
  | .unique => [.kw "unique".toList, .kw "case".toList]

/-- The grammar: the phrase is written with these tokens. -/
inductive SDerives : SPhrase → List Tok → Prop
  | base {v ts} : Derives (.base v) ts → SDerives (.left v) ts
  | part {v m l ts us ws} : Derives (.base v) ts → Derives (.expr 0 m) us → Derives (.expr 0 l) ws →
      SDerives (.left (.psel v m l)) (ts ++ .p .lbracket :: (us ++ .p .colon :: (ws ++ [.p .rbracket])))
  | partUp {v m l ts us ws} : Derives (.base v) ts → Derives (.expr 0 m) us → Derives (.expr 0 l) ws →
      SDerives (.left (.psel v m (.bin .plus m l))) (ts ++ .p .lbracket :: (us ++ .p .pluscolon :: (ws ++ [.p .rbracket])))
  | partDown {v m l ts us ws} : Derives (.base v) ts → Derives (.expr 0 m) us → Derives (.expr 0 l) ws →
      SDerives (.left (.psel v m (.bin .minus m l))) (ts ++ .p .lbracket :: (us ++ .p .minuscolon :: (ws ++ [.p .rbracket])))
  | concat {ls ts} : SDerives (.lefts ls) ts → SDerives (.left (.concat ls)) (.p .lbrace :: (ts ++ [.p .rbrace]))
  | left {l ts} : SDerives (.left l) ts → SDerives (.lefts [l]) ts
  | lefts {ls l ts us} : SDerives (.lefts ls) ts → SDerives (.left l) us →
      SDerives (.lefts (ls ++ [l])) (ts ++ .p .comma :: us)
  | blocking {l r ts us} : SDerives (.left l) ts → Derives (.expr 0 r) us →
      SDerives (.stmt false (.ba l r)) (ts ++ .p .equals :: (us ++ [.p .semicolon]))
  | nonblocking {l r ts us} : SDerives (.left l) ts → Derives (.expr 0 r) us →
      SDerives (.stmt false (.nb l r)) (ts ++ .p .le :: (us ++ [.p .semicolon]))
  | noStmt : SDerives (.stmts []) []
  | stmts {ss o s ts us} : SDerives (.stmts ss) ts → SDerives (.stmt o s) us → SDerives (.stmts (ss ++ [s])) (ts ++ us)
  | block {ss ts} : SDerives (.stmts ss) ts →
      SDerives (.stmt false (.block none ss)) (.kw "begin".toList :: (ts ++ [.kw "end".toList]))
  | named {n ss ts} : SDerives (.stmts ss) ts →
      SDerives (.stmt false (.block (some n) ss))
        (.kw "begin".toList :: .p .colon :: .id n :: (ts ++ [.kw "end".toList]))
  /-- The branch in front of an else is complete. -/
  | ifElse {c t o f ts us ws} : Derives (.expr 0 c) ts → SDerives (.stmt false t) us → SDerives (.stmt o f) ws →
      SDerives (.stmt o (.ifs c t f))
        (.kw "if".toList :: .p .lparen :: (ts ++ .p .rparen :: (us ++ .kw "else".toList :: ws)))
  | ifOnly {c o t ts us} : Derives (.expr 0 c) ts → SDerives (.stmt o t) us →
      SDerives (.stmt true (.ifs c t .skip)) (.kw "if".toList :: .p .lparen :: (ts ++ .p .rparen :: us))
  | for {pl pr c ql qr o s ts1 ts2 ts3 ts4 ts5 us} : SDerives (.left pl) ts1 → Derives (.expr 0 pr) ts2 →
      Derives (.expr 0 c) ts3 → SDerives (.left ql) ts4 → Derives (.expr 0 qr) ts5 → SDerives (.stmt o s) us →
      SDerives (.stmt o (.fors pl pr c ql qr s))
        (.kw "for".toList :: .p .lparen :: (ts1 ++ .p .equals :: (ts2 ++ .p .semicolon :: (ts3 ++ .p .semicolon ::
          (ts4 ++ .p .equals :: (ts5 ++ .p .rparen :: us))))))
  | while {c o s ts us} : Derives (.expr 0 c) ts → SDerives (.stmt o s) us →
      SDerives (.stmt o (.whiles c s)) (.kw "while".toList :: .p .lparen :: (ts ++ .p .rparen :: us))
  | alt {e ts} : Derives (.expr 0 e) ts → SDerives (.alts [e]) ts
  | alts {es e ts us} : SDerives (.alts es) ts → Derives (.expr 0 e) us →
      SDerives (.alts (es ++ [e])) (ts ++ .p .comma :: us)
  | noItem : SDerives (.items [] []) []
  | item {cs ss es o s ts us ws} : SDerives (.items cs ss) ts → SDerives (.alts es) us → SDerives (.stmt o s) ws →
      SDerives (.items (cs ++ [some es]) (ss ++ [s])) (ts ++ (us ++ .p .colon :: ws))
  | default {cs ss o s ts ws} : SDerives (.items cs ss) ts → SDerives (.stmt o s) ws →
      SDerives (.items (cs ++ [none]) (ss ++ [s])) (ts ++ .kw "default".toList :: .p .colon :: ws)
  | case {k c cs ss ts us} : Derives (.expr 0 c) ts → SDerives (.items cs ss) us → cs ≠ [] →
      SDerives (.stmt false (.cases k c cs ss))
        (caseWords k ++ .p .lparen :: (ts ++ .p .rparen :: (us ++ [.kw "endcase".toList])))

/-- A for or while statement. -/
def Stmt.isLoop : Stmt → Bool
  | .fors _ _ _ _ _ _ => true
  | .whiles _ _ => true
  | _ => false

mutual
/-- No if statement of the statement has a loop as its last branch (without `begin` and `end` around it). -/
def Stmt.loopsInside : Stmt → Bool
  | .ifs _ t .skip => t.loopsInside && !t.isLoop
  | .ifs _ t f => t.loopsInside && f.loopsInside && !f.isLoop
  | .cases _ _ _ ss => Stmt.loopsInsides ss
  | .block _ ss => Stmt.loopsInsides ss
  | .fors _ _ _ _ _ s => s.loopsInside
  | .whiles _ s => s.loopsInside
  | _ => true
/-- `Stmt.loopsInside` on lists. -/
def Stmt.loopsInsides : List Stmt → Bool
  | [] => true
  | s :: ss => s.loopsInside && Stmt.loopsInsides ss
end

end Pyv
