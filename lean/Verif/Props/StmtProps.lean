import Verif.Props.StmtRound
import Verif.Props.CodegenProps
/-
  C65: statements survive a print and a parse.  C66: the layout of the generator does not change the meaning.
-/
namespace Pyv

/-! ## C65 -/

theorem sparseN_final (n : Nat) (s : Stmt) : sparseN (n + 1) [.st s] [] [] = some s := rfl

theorem sparseN_next (n : Nat) {o : List OSym} {i : List Sym} {t : List Tok} (h : ∀ s, ¬ (o = [.st s] ∧ i = [] ∧ t = [])) :
    sparseN (n + 1) o i t = (sstep o i t).bind (fun x => sparseN n x.1 x.2.1 x.2.2) := by
  rw [sparseN]
  · cases sstep o i t <;> rfl
  · rintro s rfl rfl rfl; exact h s ⟨rfl, rfl, rfl⟩

theorem sparseN_mono {n : Nat} : ∀ {o i t s}, sparseN n o i t = some s → ∀ k, sparseN (n + k) o i t = some s := by
  induction n with
  | zero => intro o i t s h; simp [sparseN] at h
  | succ n ih =>
    intro o i t s h k
    rw [show n + 1 + k = (n + k) + 1 by omega]
    by_cases hf : ∀ s, ¬ (o = [.st s] ∧ i = [] ∧ t = [])
    · rw [sparseN_next _ hf] at h ⊢
      simp only [Option.bind_eq_some_iff] at h ⊢
      obtain ⟨x, hx, h⟩ := h
      exact ⟨x, hx, ih h k⟩
    · simp only [not_forall, Classical.not_not] at hf
      obtain ⟨s', rfl, rfl, rfl⟩ := hf
      exact h

/-- The parser has at most one answer. -/
theorem StmtParsesTo.unique {text : Str} {s s' : Stmt} (h : StmtParsesTo text s) (h' : StmtParsesTo text s') : s = s' := by
  obtain ⟨ts, hl, n, hn⟩ := h
  obtain ⟨ts', hl', n', hn'⟩ := h'
  rw [hl] at hl'
  simp only [Option.some.injEq] at hl'
  subst hl'
  have h1 := sparseN_mono hn n'
  have h2 := sparseN_mono hn' n
  rw [Nat.add_comm, h2] at h1
  simpa using h1.symm

/-- **C65** (part): a statement that is printed by the code generator and parsed again is the same statement (without its
unary plus operators), and the parser has no other answer.  Missing: a branch of an if that ends with an if without else,
in front of an else (`C65_fails_dangling`), casez and unique case statements (`C65_fails_casez`), for loops whose parts
cannot be printed without spaces (`C65_fails_for`), texts with other line separators inside a block
(`C65_fails_separator`); see `Stmt.WF` for the domain. -/
theorem C65_stmt_roundtrip_partial (s : Stmt) (h : s.WF) (s' : Stmt) : StmtParsesTo s.code s' ↔ s' = s.erase :=
  ⟨fun h' => h'.unique (stmt_parses s h), fun e => e ▸ stmt_parses s h⟩

mutual
/-- The statement contains no unary plus. -/
def Stmt.noUplus : Stmt → Bool
  | .skip => true
  | .nb l r => l.noUplus && r.noUplus
  | .ba l r => l.noUplus && r.noUplus
  | .ifs c t f => c.noUplus && t.noUplus && f.noUplus
  | .cases _ comp conds bodies => comp.noUplus && conds.all (fun c => (c.getD []).all Ex.noUplus) && Stmt.noUpluss bodies
  | .block _ ss => Stmt.noUpluss ss
  | .fors pl pr c ql qr body => pl.noUplus && pr.noUplus && c.noUplus && ql.noUplus && qr.noUplus && body.noUplus
  | .whiles c body => c.noUplus && body.noUplus
/-- `Stmt.noUplus` on lists. -/
def Stmt.noUpluss : List Stmt → Bool
  | [] => true
  | s :: ss => s.noUplus && Stmt.noUpluss ss
end

theorem snoUpluss_iff (ss : List Stmt) : Stmt.noUpluss ss = true ↔ ∀ s ∈ ss, s.noUplus = true := by
  induction ss with
  | nil => simp [Stmt.noUpluss]
  | cons s ss ih => simp [Stmt.noUpluss, ih]

theorem serases_eq_map (ss : List Stmt) : Stmt.erases ss = ss.map Stmt.erase := by
  induction ss with
  | nil => rfl
  | cons s ss ih => simp [Stmt.erases, ih]

theorem serase_id (s : Stmt) : s.noUplus = true → s.erase = s := by
  have hlist : ∀ ss : List Stmt, (∀ s ∈ ss, s.noUplus = true → s.erase = s) → Stmt.noUpluss ss = true → Stmt.erases ss = ss := by
    intro ss h hs
    rw [serases_eq_map]
    exact (List.map_congr_left (fun s hm => h s hm ((snoUpluss_iff ss).mp hs s hm))).trans (List.map_id' ss)
  induction s using Stmt.ind with
  | skip => intro _; rfl
  | nb l r => intro h; simp only [Stmt.noUplus, Bool.and_eq_true] at h; simp [Stmt.erase, erase_id _ h.1, erase_id _ h.2]
  | ba l r => intro h; simp only [Stmt.noUplus, Bool.and_eq_true] at h; simp [Stmt.erase, erase_id _ h.1, erase_id _ h.2]
  | ifs c t f iht ihf =>
    intro h; simp only [Stmt.noUplus, Bool.and_eq_true] at h
    simp [Stmt.erase, erase_id _ h.1.1, iht h.1.2, ihf h.2]
  | cases k c cs ss ih =>
    intro h
    simp only [Stmt.noUplus, Bool.and_eq_true, List.all_eq_true] at h
    simp only [Stmt.erase, erase_id _ h.1.1, hlist ss ih h.2, Stmt.cases.injEq, true_and, and_true]
    refine (List.map_congr_left (fun c hc => ?_)).trans (List.map_id' cs)
    cases c with
    | none => rfl
    | some es =>
      simp only [Option.map_some, Option.some.injEq]
      exact (List.map_congr_left (fun e he => erase_id e (h.1.2 _ hc e he))).trans (List.map_id' es)
  | block n ss ih => intro h; simp only [Stmt.noUplus] at h; simp only [Stmt.erase, hlist ss ih h]
  | fors a b c d e s ih =>
    intro h; simp only [Stmt.noUplus, Bool.and_eq_true] at h
    simp [Stmt.erase, erase_id _ h.1.1.1.1.1, erase_id _ h.1.1.1.1.2, erase_id _ h.1.1.1.2, erase_id _ h.1.1.2, erase_id _ h.1.2, ih h.2]
  | whiles c s ih =>
    intro h; simp only [Stmt.noUplus, Bool.and_eq_true] at h
    simp [Stmt.erase, erase_id _ h.1, ih h.2]

/-- **C65** (part): two statements without unary plus that are printed the same are the same. -/
theorem C65_injective_partial (s s' : Stmt) (h : s.WF) (h' : s'.WF) (hu : s.noUplus = true) (hu' : s'.noUplus = true)
    (hc : s.code = s'.code) : s = s' := by
  have h1 := stmt_parses s h
  have h2 := stmt_parses s' h'
  rw [hc] at h1
  have := h1.unique h2
  rwa [serase_id s hu, serase_id s' hu'] at this

/-- One-letter names of the witnesses. -/
def c65n (c : Char) : Ex := .ident [] [c]

/-- **C65** fails for a dangling else: no `begin`/`end` is printed around a branch, so that in
`if (a) if (b) x = c; else y = d;` (the else belonging to the first if) the else goes to the second if. -/
theorem C65_fails_dangling :
    StmtParsesTo (Stmt.ifs (c65n 'a') (.ifs (c65n 'b') (.ba (c65n 'x') (c65n 'c')) .skip) (.ba (c65n 'y') (c65n 'd'))).code
      (Stmt.ifs (c65n 'a') (.ifs (c65n 'b') (.ba (c65n 'x') (c65n 'c')) (.ba (c65n 'y') (c65n 'd'))) .skip) :=
  ⟨[.kw "if".toList, .p .lparen, .id ['a'], .p .rparen, .kw "if".toList, .p .lparen, .id ['b'], .p .rparen,
    .id ['x'], .p .equals, .id ['c'], .p .semicolon, .kw "else".toList, .id ['y'], .p .equals, .id ['d'], .p .semicolon],
    by decide +kernel, 60, rfl⟩

/-- `n` actions of the statement parser. -/
def srun : Nat → List OSym → List Sym → List Tok → Option (List OSym × List Sym × List Tok)
  | 0, o, i, t => some (o, i, t)
  | n + 1, o, i, t => match sstep o i t with | none => none | some (o', i', t') => srun n o' i' t'

/-- A run that gets stuck gives no statement. -/
theorem stuck_none {n : Nat} : ∀ {o i t}, srun n o i t = none → sparseN n o i t = none → ∀ m, sparseN m o i t = none := by
  induction n with
  | zero => intro o i t h; simp [srun] at h
  | succ n ih =>
    intro o i t h1 h2 m
    cases m with
    | zero => rfl
    | succ m =>
      by_cases hf : ∀ s, ¬ (o = [.st s] ∧ i = [] ∧ t = [])
      · rw [sparseN_next _ hf] at h2 ⊢
        unfold srun at h1
        cases hs : sstep o i t with
        | none => rfl
        | some x =>
          simp only [hs] at h1
          simp only [hs, Option.bind_some] at h2 ⊢
          exact ih h1 h2 m
      · simp only [not_forall, Classical.not_not] at hf
        obtain ⟨s', rfl, rfl, rfl⟩ := hf
        simp [sparseN_final] at h2

/-- **C65** fails for casez: there is no method for it, only the parts are printed, and
`casez (a) b: x = c; endcase` becomes `ab: x = c;`, which is not parsed at all. -/
theorem C65_fails_casez :
    (Stmt.cases .casez (c65n 'a') [some [c65n 'b']] [.ba (c65n 'x') (c65n 'c')]).code = "ab: x = c;".toList ∧
    ¬ ∃ s, StmtParsesTo (Stmt.cases .casez (c65n 'a') [some [c65n 'b']] [.ba (c65n 'x') (c65n 'c')]).code s := by
  refine ⟨by decide +kernel, ?_⟩
  rintro ⟨s, ts, hl, n, hn⟩
  have : lex (Stmt.cases .casez (c65n 'a') [some [c65n 'b']] [.ba (c65n 'x') (c65n 'c')]).code =
      some [.id "ab".toList, .p .colon, .id ['x'], .p .equals, .id ['c'], .p .semicolon] := by decide +kernel
  rw [this] at hl
  simp only [Option.some.injEq] at hl
  subst hl
  have := stuck_none (n := 30) (o := []) (i := []) (t := [.id "ab".toList, .p .colon, .id ['x'], .p .equals, .id ['c'], .p .semicolon]) rfl rfl n
  rw [this] at hn
  simp at hn

/-- **C65** fails for a for loop whose condition is an escaped name: the spaces are removed, and
`for (x = a; \b ; x = c) x = d;` is printed with `\b;`, a name that swallows the semicolon. -/
theorem C65_fails_for :
    ¬ ∃ s, StmtParsesTo (Stmt.fors (c65n 'x') (c65n 'a') (.ident [] "\\b".toList) (c65n 'x') (c65n 'c') (.ba (c65n 'x') (c65n 'd'))).code s := by
  rintro ⟨s, ts, hl, n, hn⟩
  have : lex (Stmt.fors (c65n 'x') (c65n 'a') (.ident [] "\\b".toList) (c65n 'x') (c65n 'c') (.ba (c65n 'x') (c65n 'd'))).code =
      some [.kw "for".toList, .p .lparen, .id ['x'], .p .equals, .id ['a'], .p .semicolon, .id "\\b;".toList, .id ['x'], .p .equals,
        .id ['c'], .p .rparen, .id ['x'], .p .equals, .id ['d'], .p .semicolon] := by decide +kernel
  rw [this] at hl
  simp only [Option.some.injEq] at hl
  subst hl
  have := stuck_none (n := 60) (o := []) (i := []) (t := [.kw "for".toList, .p .lparen, .id ['x'], .p .equals, .id ['a'], .p .semicolon,
    .id "\\b;".toList, .id ['x'], .p .equals, .id ['c'], .p .rparen, .id ['x'], .p .equals, .id ['d'], .p .semicolon]) rfl rfl n
  rw [this] at hn
  simp at hn

/-- **C65** fails for a string with a form feed inside a block: the generator indents what follows it, as if a line began
there, and the string gets two blanks more. -/
theorem C65_fails_separator :
    StmtParsesTo (Stmt.block none [.ba (c65n 'x') (.strc ['a', '\x0c', 'b'])]).code
      (Stmt.block none [.ba (c65n 'x') (.strc ['a', '\x0c', ' ', ' ', 'b'])]) :=
  ⟨[.kw "begin".toList, .id ['x'], .p .equals, .str ['"', 'a', '\x0c', ' ', ' ', 'b', '"'], .p .semicolon, .kw "end".toList],
    by decide +kernel, 60, rfl⟩

/-- `begin : m  if (a) {x, y} <= b + c; else case (d) e, f: x = a; default: for (x = a; b; x = c) while (d) x = e; endcase end`
is in the domain of `C65_stmt_roundtrip_partial`. -/
def c65s : Stmt :=
  .block (some ['m']) [.ifs (c65n 'a') (.nb (.concat [c65n 'x', c65n 'y']) (.bin .plus (c65n 'b') (c65n 'c')))
    (.cases .case_ (c65n 'd') [some [c65n 'e', c65n 'f'], none]
      [.ba (c65n 'x') (c65n 'a'),
       .fors (c65n 'x') (c65n 'a') (c65n 'b') (c65n 'x') (c65n 'c') (.whiles (c65n 'd') (.ba (c65n 'x') (c65n 'e')))])]

example : c65s.WF ∧ StmtParsesTo
    "begin : m\n  if(a) { x, y } <= b + c; \n  else case(d)\n    e, f: x = a;\n    default: for(x=a; b; x=c) while(d) x = e;\n  endcase\nend".toList c65s := by
  have hn : ∀ c, c ∈ "abcdefmxy".toList → IsName [c] := by
    intro c hc
    refine plain1 c ?_ ?_ <;> (revert c; decide +kernel)
  have ho : ∀ c, c ∈ "abcdefmxy".toList → isBreak c = false := by decide +kernel
  have hp : ∀ c, c ∈ "abcdefmxy".toList → (c65n c).Printable := by
    intro c hc
    refine ⟨?_, ?_⟩
    · simp only [c65n, Ex.WF, List.mem_singleton, forall_eq]; exact hn c hc
    · simp only [c65n, Ex.Leaves, List.mem_singleton, forall_eq, OneLine]; exact ho c hc
  have ha : ∀ c, (c65n c).Assignable := fun c => .base _ rfl
  have ht : ∀ c, c ∈ "abcdefmxy".toList → (c65n c).Tight := by
    have : ∀ c, c ∈ "abcdefmxy".toList → ([c] : Str).head? ≠ some '\\' := by decide +kernel
    intro c hc
    simp only [c65n, Ex.Tight, List.mem_singleton, forall_eq]; exact this c hc
  have hs : ∀ c, c ∈ "abcdefmxy".toList → (c65n c).Leaves (';' ∉ ·) := by
    have : ∀ c, c ∈ "abcdefmxy".toList → ';' ∉ ([c] : Str) := by decide +kernel
    intro c hc
    intro l hl
    rw [List.mem_singleton.mp hl]; exact this c hc
  have hbin : (Ex.bin .plus (c65n 'b') (c65n 'c')).Printable := by
    refine ⟨?_, ?_⟩
    · simp only [Ex.WF]; exact ⟨rfl, by decide, (hp _ (by decide)).1, (hp _ (by decide)).1⟩
    · simp only [Ex.Leaves]; exact ⟨(hp _ (by decide)).2, (hp _ (by decide)).2⟩
  have hcat : (Ex.concat [c65n 'x', c65n 'y']).Printable := by
    refine ⟨?_, ?_⟩
    · simp only [Ex.WF, Ex.WFs]; exact ⟨by simp, (hp _ (by decide)).1, (hp _ (by decide)).1, trivial⟩
    · simp only [Ex.Leaves, Ex.Leavess]; exact ⟨(hp _ (by decide)).2, (hp _ (by decide)).2, trivial⟩
  have hw : c65s.WF := by
    simp only [c65s, Stmt.WF, Stmt.WFs]
    refine ⟨fun n h => by simp at h; subst h; exact ⟨hn 'm' (by decide), fun c hc => by simp at hc; subst hc; exact ho 'm' (by decide)⟩,
      ⟨hp _ (by decide), ⟨hcat, .concat _ (by simp [ha]), hbin⟩, .inr ⟨⟨by simp, hp _ (by decide), by simp, rfl, ?_,
        ⟨hp _ (by decide), ha _, hp _ (by decide)⟩, ⟨ha _, ha _, ?_, hs _ (by decide), hs _ (by decide), hp _ (by decide), hp _ (by decide), ha _, hp _ (by decide)⟩, trivial⟩, rfl, rfl⟩⟩, trivial⟩
    · simp only [List.mem_cons, List.not_mem_nil, or_false, forall_eq_or_imp, forall_eq, CondsOK]
      exact ⟨⟨by simp, hp _ (by decide), hp _ (by decide)⟩, trivial⟩
    · rintro e (rfl | rfl | rfl | rfl | rfl) <;> exact ⟨hp _ (by decide), ht _ (by decide)⟩
  refine ⟨hw, ?_⟩
  have h := stmt_parses c65s hw
  have hc : c65s.code = "begin : m\n  if(a) { x, y } <= b + c; \n  else case(d)\n    e, f: x = a;\n    default: for(x=a; b; x=c) while(d) x = e;\n  endcase\nend".toList := by decide +kernel
  rwa [hc, serase_id c65s rfl] at h

/-! ## C66 -/

/-- **C66**: blanks that are inserted at the beginnings of lines, however many and at whichever lines, do not change the
tokens of a text: no string, name, number or operator reaches over the end of a line. -/
theorem C66_reindent (s s' : Str) (h : Reindent s s') : lex s' = lex s := lex_reindent h

/-- **C66**: the indentation of the generator (`indent`, and the alignment of an assignment over several lines) is such an
insertion for a text without other line separators than newlines, hence it keeps the tokens (after a newline, which is how
the generator uses it). -/
theorem C66_indent (n : Nat) (s : Str) (h : ∀ c ∈ s, isBreak c = true → c = '\n') :
    lex ('\n' :: indentN n s) = lex ('\n' :: s) ∧ lex (indentAssign s) = lex s := by
  refine ⟨?_, lex_reindent (indentAssign_re s h)⟩
  obtain ⟨k, t, e, ht⟩ := indentN_re n s h
  rw [e]
  exact lex_reindent (.nl k ht)

/-- **C66** fails for a text with a form feed inside a string. -/
theorem C66_fails_formfeed :
    lex ('\n' :: indentN 2 ['"', 'a', '\x0c', 'b', '"']) ≠ lex ('\n' :: ['"', 'a', '\x0c', 'b', '"']) := by decide +kernel

example : Reindent "a\n+ b\n\n;".toList "a\n   + b\n\n ;".toList ∧ lex "a\n   + b\n\n ;".toList = some [.id ['a'], .p .plus, .id ['b'], .p .semicolon] ∧
    indentN 2 "x = 1;\n\ny = 2;".toList = "  x = 1;\n\n  y = 2;".toList := by
  refine ⟨.chr _ (by decide) (.nl 3 (.chr _ (by decide) (.chr _ (by decide) (.chr _ (by decide) (.nl 0 (.nl 1 (.chr _ (by decide) .nil))))))), by decide +kernel, by decide +kernel⟩

end Pyv
