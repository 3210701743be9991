import Verif.Props.ParseProps
/-
  C41, C42, C45: the code generator against the parser.
-/
namespace Pyv

/-- The texts `s1 s2 s3 ...` one after another, cut into tokens. -/
theorem LexP.toLex {c : Str} {T : List Tok} (h : LexP c T) : lex c = some T := by
  have := h [] [] (by intro c hc; simp at hc) Lx.nil
  simp only [List.append_nil] at this
  exact this.toLex

theorem WF.lex_rcode {e : Ex} (h : e.WF) : lex e.rcode = some e.itoks := by
  have := code_lexP e true h (by simp)
  rw [sq_true] at this
  exact this.toLex

theorem WF.lexP_code {e : Ex} (h : e.WF) : LexP e.code e.toks := by
  have := lexP_wrap true e h (code_lexP e true h (by simp))
  rwa [sq_true] at this

theorem WF.lex_code {e : Ex} (h : e.WF) : lex e.code = some e.toks := (WF.lexP_code h).toLex

theorem WF.outer {e : Ex} (h : e.WF) : POuter e := outer_of_inner e h (parse_main e h).1

/-- **C41** (part): the code generated for a Verilog expression is parsed back to that expression, without its unary
pluses, with the outer parentheses (`visit`) and without them (the sides of an assignment).  Missing: `<<<`
(`C41_fails_sla`), and part select bounds where removing the spaces joins tokens (`C41_fails_partselect`,
`C41_fails_escaped`, `C41_fails_string`); see `Ex.WF` for the domain. -/
theorem C41_roundtrip_partial (e : Ex) (h : e.WF) : ParsesTo e.code e.erase ∧ ParsesTo (delParen e.code) e.erase := by
  constructor
  · refine ⟨e.toks, WF.lex_code h, ?_⟩
    have := WF.outer h [] [] rfl (by simp [Follow])
    rw [List.append_nil] at this
    exact this.parse
  · refine ⟨e.itoks, WF.lex_rcode h, ?_⟩
    have := (parse_main e h).1 [] [] rfl (weaker_zero rfl e h) (by simp [Follow]) (red_none rfl e)
    rw [List.append_nil] at this
    exact this.parse

mutual
/-- No unary plus occurs. -/
def Ex.noUplus : Ex → Bool
  | .uplus _ => false
  | .un _ e => e.noUplus
  | .bin _ a b => a.noUplus && b.noUplus
  | .cond c t f => c.noUplus && t.noUplus && f.noUplus
  | .psel v m l => v.noUplus && m.noUplus && l.noUplus
  | .ptr v p => v.noUplus && p.noUplus
  | .concat es => Ex.noUpluss es
  | .rep t v => t.noUplus && v.noUplus
  | .call _ es => Ex.noUpluss es
  | .sys _ es => Ex.noUpluss es
  | _ => true
/-- `Ex.noUplus` on lists. -/
def Ex.noUpluss : List Ex → Bool
  | [] => true
  | e :: es => e.noUplus && Ex.noUpluss es
end

theorem noUpluss_iff (es : List Ex) : Ex.noUpluss es = true ↔ ∀ e ∈ es, e.noUplus = true := by
  induction es with
  | nil => simp [Ex.noUpluss]
  | cons e es ih => simp [Ex.noUpluss, ih]

theorem erase_id (e : Ex) : e.noUplus = true → e.erase = e := by
  induction e using Ex.ind with
  | ident => intro _; simp [Ex.erase]
  | intc => intro _; simp [Ex.erase]
  | fltc => intro _; simp [Ex.erase]
  | strc => intro _; simp [Ex.erase]
  | uplus => intro h; simp [Ex.noUplus] at h
  | un o e ih => intro h; simp only [Ex.noUplus] at h; simp [Ex.erase, ih h]
  | bin o a b iha ihb =>
    intro h; simp only [Ex.noUplus, Bool.and_eq_true] at h; simp [Ex.erase, iha h.1, ihb h.2]
  | cond c t f ihc iht ihf =>
    intro h; simp only [Ex.noUplus, Bool.and_eq_true] at h; simp [Ex.erase, ihc h.1.1, iht h.1.2, ihf h.2]
  | psel v m l ihv ihm ihl =>
    intro h; simp only [Ex.noUplus, Bool.and_eq_true] at h; simp [Ex.erase, ihv h.1.1, ihm h.1.2, ihl h.2]
  | ptr v p ihv ihp =>
    intro h; simp only [Ex.noUplus, Bool.and_eq_true] at h; simp [Ex.erase, ihv h.1, ihp h.2]
  | concat es ih =>
    intro h
    simp only [Ex.noUplus, noUpluss_iff] at h
    simp only [Ex.erase, erases_eq_map, Ex.concat.injEq]
    exact (List.map_congr_left (fun e he => ih e he (h e he))).trans (List.map_id' es)
  | rep t v iht ihv =>
    intro h; simp only [Ex.noUplus, Bool.and_eq_true] at h; simp [Ex.erase, iht h.1, ihv h.2]
  | call f es ih =>
    intro h
    simp only [Ex.noUplus, noUpluss_iff] at h
    simp only [Ex.erase, erases_eq_map, Ex.call.injEq, true_and]
    exact (List.map_congr_left (fun e he => ih e he (h e he))).trans (List.map_id' es)
  | sys f es ih =>
    intro h
    simp only [Ex.noUplus, noUpluss_iff] at h
    simp only [Ex.erase, erases_eq_map, Ex.sys.injEq, true_and]
    exact (List.map_congr_left (fun e he => ih e he (h e he))).trans (List.map_id' es)

/-- **C41** (part): two expressions without unary plus that are printed the same are the same. -/
theorem C41_injective_partial (e e' : Ex) (h : e.WF) (h' : e'.WF) (hu : e.noUplus = true) (hu' : e'.noUplus = true)
    (hc : delParen e.code = delParen e'.code) : e = e' := by
  have h1 := (C41_roundtrip_partial e h).2
  have h2 := (C41_roundtrip_partial e' h').2
  rw [hc] at h1
  have := h1.unique h2
  rwa [erase_id e hu, erase_id e' hu'] at this

/-- **C41** fails for `<<<`: visit has no method for `Sla`, the operands are printed without an operator, so that
`a <<< b` becomes `ab`. -/
theorem C41_fails_sla (a b : Str) :
    (Ex.bin .sla (.ident [] a) (.ident [] b)).code = escape a ++ escape b ∧
    ParsesTo (Ex.bin .sla (.ident [] "a".toList) (.ident [] "b".toList)).code (.ident [] "ab".toList) := by
  refine ⟨by simp [Ex.code], ⟨[.id "ab".toList], by decide +kernel, 4, rfl⟩⟩

/-- **C41** fails inside a part select: `x[(a & &b):y]` is printed `x[a&&b:y]`, which means `a && b`. -/
theorem C41_fails_partselect :
    ParsesTo (Ex.psel (.ident [] "x".toList) (.bin .and (.ident [] "a".toList) (.un .uand (.ident [] "b".toList)))
      (.ident [] "y".toList)).code
      (Ex.psel (.ident [] "x".toList) (.bin .land (.ident [] "a".toList) (.ident [] "b".toList)) (.ident [] "y".toList)) :=
  ⟨[.id "x".toList, .p .lbracket, .id "a".toList, .p .land, .id "b".toList, .p .colon, .id "y".toList, .p .rbracket],
    by decide +kernel, 30, rfl⟩

/-- **C41** fails for an escaped name in a part select: `x[\a :0]` is printed `x[\a:0]`, where the name swallows the
rest of the text, so that it is not parsed at all. -/
theorem C41_fails_escaped :
    ¬ ∃ e, ParsesTo (Ex.psel (.ident [] "x".toList) (.ident [] "\\a".toList) (.intc "0".toList)).code e := by
  rintro ⟨e, ts, hl, n, hn⟩
  have : lex (Ex.psel (.ident [] "x".toList) (.ident [] "\\a".toList) (.intc "0".toList)).code =
      some [.id "x".toList, .p .lbracket, .id "\\a:0]".toList] := by decide +kernel
  rw [this] at hl
  obtain rfl : [Tok.id "x".toList, .p .lbracket, .id "\\a:0]".toList] = ts := by simpa using hl
  match n, hn with
  | 0, h => simp [parseN] at h
  | 1, h => simp [parseN, step, shift] at h
  | 2, h => simp [parseN, step, shift] at h
  | 3, h => simp [parseN, step, shift] at h
  | 4, h => simp [parseN, step, shift] at h
  | 5, h => simp [parseN, step, shift] at h
  | 6, h => simp [parseN, step, shift] at h
  | n + 7, h => simp [parseN, step, stepEx, shift, Pun.unOp] at h

/-- **C41** fails for a string with a space in a part select. -/
theorem C41_fails_string :
    ParsesTo (Ex.psel (.ident [] "x".toList) (.strc " ".toList) (.intc "0".toList)).code
      (Ex.psel (.ident [] "x".toList) (.strc []) (.intc "0".toList)) :=
  ⟨[.id "x".toList, .p .lbracket, .str "\"\"".toList, .p .colon, .int "0".toList, .p .rbracket], by decide +kernel, 30, rfl⟩

/-- `f(a - b) * {2{x[i], ~y[3:0]}} + (c ? -d : e)` is in the domain of `C41_roundtrip_partial`. -/
def c41e : Ex :=
  .bin .plus
    (.bin .times (.call "f".toList [.bin .minus (.ident [] "a".toList) (.ident [] "b".toList)])
      (.rep (.intc "2".toList) (.concat [.ptr (.ident ["u".toList] "x".toList) (.ident [] "i".toList),
        .un .unot (.psel (.ident [] "y".toList) (.intc "3".toList) (.intc "0".toList))])))
    (.cond (.ident [] "c".toList) (.un .uminus (.ident [] "d".toList)) (.ident [] "e".toList))

theorem plain1 (c : Char) (h : isIdStart c = true) (h2 : [c] ∉ reservedWords) : IsName [c] :=
  Or.inl ⟨⟨c, [], rfl, h, by simp⟩, h2⟩

example : c41e.WF ∧ c41e.noUplus = true ∧
    c41e.code = "(f((a - b)) * { 2{ u.x[i], ~y[3:0] } } + ((c)? -d : e))".toList ∧
    ParsesTo "f((a - b)) * { 2{ u.x[i], ~y[3:0] } } + ((c)? -d : e)".toList c41e := by
  have hw : c41e.WF := by
    have hn : ∀ c, c ∈ "abcdefiuxy".toList → IsName [c] := by
      intro c hc
      refine plain1 c ?_ ?_ <;> (revert c; decide +kernel)
    have hi : ∀ c, isDig c = true → IntLit [c] := fun c hc => .dec c [] hc (by simp)
    simp only [c41e, Ex.WF, Ex.WFs, Ex.Tight, List.mem_singleton, List.mem_cons, List.not_mem_nil, or_false, forall_eq,
      forall_eq_or_imp, Ex.isBase, Ex.isConcat]
    refine ⟨rfl, by decide, ⟨rfl, by decide, ⟨hn _ (by decide), ⟨rfl, by decide, hn _ (by decide), hn _ (by decide)⟩, trivial⟩,
      trivial, hi _ rfl, by simp, ⟨trivial, ⟨hn _ (by decide), hn _ (by decide)⟩, hn _ (by decide)⟩,
      ⟨rfl, trivial, hn _ (by decide), hi _ rfl, hi _ rfl, trivial, trivial⟩, trivial⟩,
      hn _ (by decide), ⟨rfl, hn _ (by decide)⟩, hn _ (by decide)⟩
  refine ⟨hw, rfl, by decide +kernel, ?_⟩
  have h := (C41_roundtrip_partial c41e hw).2
  have hc : delParen c41e.code = "f((a - b)) * { 2{ u.x[i], ~y[3:0] } } + ((c)? -d : e)".toList := by decide +kernel
  rw [hc] at h
  have he : c41e.erase = c41e := erase_id _ rfl
  rwa [he] at h

/-! ## C42: balanced brackets -/

/-- Pairs of brackets. -/
def IsPair (o c : Pun) : Prop := (o = .lparen ∧ c = .rparen) ∨ (o = .lbracket ∧ c = .rbracket) ∨ (o = .lbrace ∧ c = .rbrace)
/-- Not a bracket. -/
def NoBracket (t : Tok) : Prop :=
  t ∉ [Tok.p .lparen, .p .rparen, .p .lbracket, .p .rbracket, .p .lbrace, .p .rbrace]

/-- Texts with balanced brackets: the grammar of nested bracket pairs. -/
inductive Balanced : List Tok → Prop
  | nil : Balanced []
  | tok (t : Tok) : NoBracket t → Balanced [t]
  | pair (o c : Pun) (ts : List Tok) : IsPair o c → Balanced ts → Balanced (.p o :: (ts ++ [.p c]))
  | app (a b : List Tok) : Balanced a → Balanced b → Balanced (a ++ b)

theorem Balanced.cons {t : Tok} {ts : List Tok} (h : NoBracket t) (hb : Balanced ts) : Balanced (t :: ts) :=
  .app [t] ts (.tok t h) hb
theorem Balanced.paren {ts : List Tok} (h : Balanced ts) : Balanced (.p .lparen :: (ts ++ [.p .rparen])) :=
  .pair _ _ _ (Or.inl ⟨rfl, rfl⟩) h
theorem Balanced.wrapT {e : Ex} {ts : List Tok} (h : Balanced ts) : Balanced (e.wrapT ts) := by
  unfold Ex.wrapT; split
  · exact h.paren
  · exact h
theorem noBracket_op (o : Op) : NoBracket (.p o.pun) := by cases o <;> simp [NoBracket, Op.pun]
theorem noBracket_id (n : Str) : NoBracket (.id n) := by simp [NoBracket]

theorem Balanced.comma : ∀ (l : List (List Tok)), (∀ t ∈ l, Balanced t) → Balanced (commaT l)
  | [], _ => .nil
  | [t], h => h t (by simp)
  | s :: t :: r, h =>
    .app _ _ (h s (by simp)) (.cons (by simp [NoBracket]) (Balanced.comma (t :: r) (fun x hx => h x (by simp at hx ⊢; tauto))))

theorem itoks_balanced (e : Ex) : Balanced e.itoks := by
  induction e using Ex.ind with
  | ident sc n =>
    simp only [Ex.itoks]
    induction sc with
    | nil => exact .tok _ (noBracket_id _)
    | cons l sc ih =>
      simp only [List.flatMap_cons, List.cons_append, List.nil_append] at ih ⊢
      exact .cons (noBracket_id _) (.cons (by simp [NoBracket]) ih)
  | intc s => exact .tok _ (by simp [NoBracket])
  | fltc s => exact .tok _ (by simp [NoBracket])
  | strc s => exact .tok _ (by simp [NoBracket])
  | uplus e ih => simp only [Ex.itoks]; exact ih.wrapT
  | un o e ih => simp only [Ex.itoks]; exact .cons (noBracket_op o) ih.wrapT
  | bin o a b iha ihb =>
    simp only [Ex.itoks]
    refine .app _ _ ?_ (.cons (noBracket_op o) ?_)
    · split
      · exact iha
      · exact iha.wrapT
    · split
      · exact ihb
      · exact ihb.wrapT
  | cond c t f ihc iht ihf =>
    simp only [Ex.itoks]
    have := Balanced.app _ _ ihc.paren (.cons (t := .p .cond) (by simp [NoBracket])
      (.app _ _ iht (.cons (t := .p .colon) (by simp [NoBracket]) ihf)))
    simpa using this
  | psel v m l ihv ihm ihl =>
    simp only [Ex.itoks]
    have := Balanced.app _ _ ihv (.pair .lbracket .rbracket _ (Or.inr (Or.inl ⟨rfl, rfl⟩))
      (.app _ _ ihm (.cons (t := .p .colon) (by simp [NoBracket]) ihl)))
    simpa using this
  | ptr v p ihv ihp =>
    simp only [Ex.itoks]
    exact .app _ _ ihv (.pair .lbracket .rbracket _ (Or.inr (Or.inl ⟨rfl, rfl⟩)) ihp)
  | concat es ih =>
    simp only [Ex.itoks, itokss_eq_map]
    refine .pair _ _ _ (Or.inr (Or.inr ⟨rfl, rfl⟩)) (.comma _ ?_)
    intro t ht
    obtain ⟨e, he, rfl⟩ := List.mem_map.mp ht
    exact ih e he
  | rep t v iht ihv =>
    simp only [Ex.itoks]
    have := Balanced.pair .lbrace .rbrace _ (Or.inr (Or.inr ⟨rfl, rfl⟩)) (.app _ _ iht ihv)
    simpa using this
  | call f es ih =>
    simp only [Ex.itoks, wtokss_eq_map]
    refine .cons (noBracket_id _) (.paren (.comma _ ?_))
    intro t ht
    obtain ⟨e, he, rfl⟩ := List.mem_map.mp ht
    exact (ih e he).wrapT
  | sys f es ih =>
    simp only [Ex.itoks, wtokss_eq_map]
    refine .cons (by simp [NoBracket]) (.cons (by split <;> simp [NoBracket]) ?_)
    split
    · refine .paren (.comma _ ?_)
      intro t ht
      obtain ⟨e, he, rfl⟩ := List.mem_map.mp ht
      exact (ih e he).wrapT
    · exact .nil

/-- **C42** (part): the code generated for a Verilog expression has balanced brackets, and so has the code after the
removal of an outer pair.  Missing: `<<<` and part select bounds that are not `Tight` (see `C42_fails_sla`,
`C41_fails_escaped`). -/
theorem C42_balanced_partial (e : Ex) (h : e.WF) :
    (∃ ts, lex e.code = some ts ∧ Balanced ts) ∧ (∃ ts, lex (delParen e.code) = some ts ∧ Balanced ts) :=
  ⟨⟨_, WF.lex_code h, (itoks_balanced e).wrapT⟩, ⟨_, WF.lex_rcode h, itoks_balanced e⟩⟩

/-- The number of open parentheses after a token, `none` if it closes one that is not open. -/
def Tok.depth (t : Tok) (n : Nat) : Option Nat :=
  if t = .p .lparen then some (n + 1) else if t = .p .rparen then (if n = 0 then none else some (n - 1)) else some n

/-- How many parentheses are open at the end of the tokens, `none` if one was closed too early. -/
def parenDepth : List Tok → Nat → Option Nat
  | [], n => some n
  | t :: ts, n => (t.depth n).bind (parenDepth ts)

theorem parenDepth_append (a b : List Tok) : ∀ n, parenDepth (a ++ b) n = (parenDepth a n).bind (parenDepth b) := by
  induction a with
  | nil => intro n; rfl
  | cons t a ih =>
    intro n
    simp only [List.cons_append, parenDepth]
    cases t.depth n with
    | none => rfl
    | some m => simp [ih]

/-- Balanced texts close every parenthesis they open. -/
theorem Balanced.depth {ts : List Tok} (h : Balanced ts) : ∀ n, parenDepth ts n = some n := by
  induction h with
  | nil => intro n; rfl
  | tok t ht =>
    intro n
    have h1 : t ≠ .p .lparen := by rintro rfl; simp [NoBracket] at ht
    have h2 : t ≠ .p .rparen := by rintro rfl; simp [NoBracket] at ht
    simp [parenDepth, Tok.depth, h1, h2]
  | pair o c ts hp _ ih =>
    intro n
    rcases hp with ⟨rfl, rfl⟩ | ⟨rfl, rfl⟩ | ⟨rfl, rfl⟩ <;>
      simp [parenDepth, parenDepth_append, Tok.depth, ih]
  | app a b _ _ iha ihb => intro n; rw [parenDepth_append, iha]; exact ihb n

/-- **C42** fails for `<<<`: `(a + b) <<< (c + d)` is printed `(a + b)(c + d)`, and on the right of an assignment the
first and the last parenthesis, which do not match, are removed: `a + b)(c + d`. -/
theorem C42_fails_sla :
    let e := Ex.bin .sla (.bin .plus (.ident [] "a".toList) (.ident [] "b".toList))
      (.bin .plus (.ident [] "c".toList) (.ident [] "d".toList))
    delParen e.code = "a + b)(c + d".toList ∧ ∀ ts, lex (delParen e.code) = some ts → ¬ Balanced ts := by
  refine ⟨by decide +kernel, ?_⟩
  intro ts h hb
  have : lex (delParen (Ex.bin .sla (.bin .plus (.ident [] "a".toList) (.ident [] "b".toList))
      (.bin .plus (.ident [] "c".toList) (.ident [] "d".toList))).code) =
      some [.id "a".toList, .p .plus, .id "b".toList, .p .rparen, .p .lparen, .id "c".toList, .p .plus, .id "d".toList] := by
    decide +kernel
  rw [this] at h
  simp only [Option.some.injEq] at h
  subst h
  have := hb.depth 0
  simp [parenDepth, Tok.depth] at this

example : ∃ ts, lex c41e.code = some ts ∧ Balanced ts ∧ 30 < ts.length :=
  ⟨c41e.toks, by decide +kernel, (itoks_balanced c41e).wrapT, by decide +kernel⟩

/-! ## C45: the operator tables -/

theorem lex_mark (o : Op) : lex o.mark = some [.p o.pun] := by
  cases o <;> decide +kernel

/-- **C45**: the mark printed for an operator is one token, from which the parser builds that operator; and of two
binary operators the generator's table puts the one first to which the parser gives the higher precedence, with equal
places for equal precedences. -/
theorem C45_tables (o : Op) :
    (∃ k, lex o.mark = some [.p k] ∧
      (if o.unary then k.unOp = some (Ex.un o) else k.binOp = some o)) ∧
    (∀ (o' : Op) (k k' : Pun), o.unary = false → o'.unary = false → lex o.mark = some [.p k] → lex o'.mark = some [.p k'] →
      (o.order < o'.order ↔ k'.level < k.level)) := by
  constructor
  · refine ⟨o.pun, lex_mark o, ?_⟩
    cases hu : o.unary with
    | true => exact op_pun_unary o hu
    | false => exact (op_pun_binary o hu).1
  · intro o' k k' h h' hk hk'
    rw [lex_mark] at hk hk'
    simp only [Option.some.injEq, List.cons.injEq, Tok.p.injEq, and_true] at hk hk'
    subst hk; subst hk'
    have h1 := op_pun_binary o h
    have h2 := op_pun_binary o' h'
    omega

/-- The texts of two operands and the operator between them. -/
theorem lexP_infix {a b : Str} {Ta Tb : List Tok} (o : Op) (ha : LexP a Ta) (hb : LexP b Tb) : LexP (a ++ ' ' :: (o.mark ++ ' ' :: b)) (Ta ++ .p o.pun :: Tb) := by
  intro r ts hd hl
  have h1 := hb r ts hd hl
  have h2 : Lx (' ' :: (b ++ r)) (Tb ++ ts) := Lx.spc true h1
  have h3 : Lx (o.pun.text ++ ' ' :: (b ++ r)) (.p o.pun :: (Tb ++ ts)) := by
    refine Lx.pun o.pun ?_ h2
    intro c hc
    simp at hc; subst hc
    cases o <;> decide
  have h4 : Lx (' ' :: (o.pun.text ++ ' ' :: (b ++ r))) (.p o.pun :: (Tb ++ ts)) := Lx.spc true h3
  have := ha (' ' :: (o.pun.text ++ ' ' :: (b ++ r))) _ (Delim.cons _ (by decide)) h4
  rw [Op.pun_text] at this
  simpa using this

/-- **C45** in arbitrary expressions: in `a o b o' c` the parser groups the operators as the generator's table says: to
the right exactly if the second operator comes first in the table. -/
theorem C45_grouping (o o' : Op) (h : o.unary = false) (h' : o'.unary = false) (a b c : Ex) (ha : a.WF) (hb : b.WF)
    (hc : c.WF) :
    ParsesTo (a.code ++ ' ' :: (o.mark ++ ' ' :: (b.code ++ ' ' :: (o'.mark ++ ' ' :: c.code))))
      (if o'.order < o.order then .bin o a.erase (.bin o' b.erase c.erase)
        else .bin o' (.bin o a.erase b.erase) c.erase) := by
  have hbc := lexP_infix o' (WF.lexP_code hb) (WF.lexP_code hc)
  have habc := lexP_infix o (WF.lexP_code ha) hbc
  refine ⟨_, habc.toLex, ?_⟩
  have h1 := op_pun_binary o h
  have h2 := op_pun_binary o' h'
  refine St.parse (St.trans (WF.outer ha [] _ rfl (follow_pun o _)) ?_)
  refine .head (shift_infix _ [] _ _ _ (infix_pun o h) (Or.inr rfl)) ?_
  refine St.trans (WF.outer hb _ _ (ctx_pun o _) (follow_pun o' _)) ?_
  have hce := fun σ (hσ : Ctx σ = true) => WF.outer hc σ [] hσ (by simp [Follow])
  simp only [List.append_nil] at hce
  split
  · next hlt =>
    refine .head (shift_infix _ _ _ _ _ (infix_pun o' h') (Or.inl ?_)) ?_
    · simp only [pend, h1.1, Option.isSome_some, if_true]; omega
    refine St.trans (hce _ (ctx_pun o' _)) ?_
    refine .head (stepEx_bin _ _ o' h' _ _ rfl) (.head (stepEx_bin _ _ o h _ _ rfl) .refl)
  · next hge =>
    refine .head (stepEx_bin _ _ o h _ _ ?_) ?_
    · simp only [reduceLeft, List.head?_cons, infix_pun o' h', decide_eq_true_eq]; omega
    refine .head (shift_infix _ [] _ _ _ (infix_pun o' h') (Or.inr rfl)) ?_
    refine St.trans (hce _ (ctx_pun o' _)) ?_
    exact .head (stepEx_bin _ _ o' h' _ _ rfl) .refl

example : ParsesTo "a - b * c".toList (.bin .minus (.ident [] "a".toList) (.bin .times (.ident [] "b".toList) (.ident [] "c".toList))) ∧
    ParsesTo "a - b - c".toList (.bin .minus (.bin .minus (.ident [] "a".toList) (.ident [] "b".toList)) (.ident [] "c".toList)) := by
  have hn : ∀ c, c ∈ "abc".toList → (Ex.ident [] [c]).WF := by
    intro c hc
    simp only [Ex.WF, List.mem_singleton, forall_eq]
    refine plain1 c ?_ ?_ <;> (revert c; decide +kernel)
  have h1 := C45_grouping .minus .times rfl rfl _ _ _ (hn 'a' (by decide)) (hn 'b' (by decide)) (hn 'c' (by decide))
  have h2 := C45_grouping .minus .minus rfl rfl _ _ _ (hn 'a' (by decide)) (hn 'b' (by decide)) (hn 'c' (by decide))
  exact ⟨h1, h2⟩

end Pyv
