import Verif.Props.StmtPrint
import Verif.ModuleSpec
/-
  Every printed module is cut into its tokens.
-/
namespace Pyv

/-- The text is printed and is cut into these tokens, whatever follows (`f`) or in front of a delimiter. -/
def Pr (f : Bool) (code : Str) (T : List Tok) : Prop :=
  NoBreak code ∧ ∃ raw, Reindent raw code ∧ ∀ r ts, (f = false → Delim r) → Lx r ts → Lx (raw ++ r) (T ++ ts)

/-- The text begins with a delimiter. -/
def DHead (s : Str) : Prop := ∃ c, s.head? = some c ∧ isIdChar c = false ∧ c ≠ '\'' ∧ c ≠ '.' ∧ c ≠ '?'

theorem DHead.cons {c : Char} (s : Str) (h : isIdChar c = false ∧ c ≠ '\'' ∧ c ≠ '.' ∧ c ≠ '?') : DHead (c :: s) := ⟨c, rfl, h⟩

theorem DHead.app {s : Str} (h : DHead s) (t : Str) : DHead (s ++ t) := by
  obtain ⟨c, h1, h2⟩ := h
  refine ⟨c, ?_, h2⟩
  cases s with
  | nil => simp at h1
  | cons d s => exact h1

theorem Pr.nil {f : Bool} : Pr f [] [] := ⟨fun c hc => by simp at hc, [], .nil, fun _ _ _ h => h⟩

theorem Pr.weak {f : Bool} {a : Str} {A : List Tok} (h : Pr true a A) : Pr f a A := by
  obtain ⟨h1, raw, h2, h3⟩ := h
  exact ⟨h1, raw, h2, fun r ts _ hl => h3 r ts (by simp) hl⟩

theorem Pr.app {f : Bool} {a b : Str} {A B : List Tok} (h : Pr true a A) (h2 : Pr f b B) : Pr f (a ++ b) (A ++ B) := by
  obtain ⟨a1, ra, a2, a3⟩ := h
  obtain ⟨b1, rb, b2, b3⟩ := h2
  refine ⟨a1.append b1, ra ++ rb, a2.append b2, fun r ts hf hl => ?_⟩
  rw [List.append_assoc, List.append_assoc]
  exact a3 _ _ (by simp) (b3 r ts hf hl)

theorem Pr.appD {f : Bool} {a b : Str} {A B : List Tok} (h : Pr false a A) (h2 : Pr f b B) (hd : DHead b) :
    Pr f (a ++ b) (A ++ B) := by
  obtain ⟨a1, ra, a2, a3⟩ := h
  obtain ⟨b1, rb, b2, b3⟩ := h2
  refine ⟨a1.append b1, ra ++ rb, a2.append b2, fun r ts hf hl => ?_⟩
  rw [List.append_assoc, List.append_assoc]
  refine a3 _ _ (fun _ => ?_) (b3 r ts hf hl)
  obtain ⟨c, hc, hd⟩ := hd
  have := b2.head?
  rw [hc] at this
  intro d hd2
  cases rb with
  | nil => simp at this
  | cons x rb => simp at this hd2; subst this hd2; exact hd

theorem Pr.lexP {a : Str} {A : List Tok} (hb : NoBreak a) (h : LexP a A) : Pr false a A :=
  ⟨hb, a, .refl a, fun r ts hd hl => h r ts (hd rfl) hl⟩

theorem Pr.ws {f : Bool} (w : Str) (hw : ∀ c ∈ w, c = ' ' ∨ c = '\n') : Pr f w [] :=
  ⟨fun c hc hb => by rcases hw c hc with rfl | rfl; revert hb; decide; rfl, w, .refl w, fun _ _ _ hl => Lx.ws w hw hl⟩

theorem Pr.ch {f : Bool} (k : Pun) (c : Char) (hk : k.text = [c]) (hc : k.cont = []) (hb : isBreak c = false) : Pr f [c] [.p k] :=
  ⟨fun d hd hbr => by simp at hd; subst hd; rw [hb] at hbr; simp at hbr, [c], .refl _, fun _ _ _ hl => Lx.ch k c hk hc hl⟩

theorem Pr.kw {w : Str} (hw : w ∈ reservedWords) : Pr false w [.kw w] := by
  refine ⟨?_, w, .refl _, fun r ts hr hl => Lx.kw hw (hr rfl).id hl⟩
  have : ∀ w ∈ reservedWords, w.all (fun c => !isBreak c || c == '\n') = true := by decide +kernel
  exact NoBreak.lit _ (this w hw)

/-- A keyword and a space. -/
theorem Pr.kws {f : Bool} {w : Str} (hw : w ∈ reservedWords) : Pr f (w ++ [' ']) [.kw w] :=
  Pr.weak (Pr.appD (Pr.kw hw) (Pr.ws [' '] (by simp)) (DHead.cons _ (by decide)))

theorem NameOK.noBreak {n : Str} (h : NameOK n) : NoBreak (escape n) := by
  intro c hc hb
  unfold escape at hc
  split at hc
  · rcases List.mem_append.mp hc with h' | h'
    · rw [h.2 c h'] at hb; simp at hb
    · simp at h'; subst h'; revert hb; decide
  · rw [h.2 c hc] at hb; simp at hb

theorem Pr.name {n : Str} (h : NameOK n) : Pr false (escape n) [.id n] := by
  refine ⟨h.noBreak, _, .refl _, fun r ts hr hl => ?_⟩
  have := h.1.lexP true (by simp) (hr rfl).id hl
  rwa [sq_true] at this

/-- A dot and a name. -/
theorem Pr.dot {n : Str} (h : NameOK n) : Pr false ('.' :: escape n) [.p .dot, .id n] := by
  refine ⟨(NoBreak.lit ['.'] (by decide)).append h.noBreak, _, .refl _, fun r ts hr hl => ?_⟩
  have h1 := h.1.lexP true (by simp) (hr rfl).id hl
  have h2 := h.1.start true r
  rw [sq_true] at h1 h2
  exact Lx.pun .dot h2 h1

theorem Pr.expr {e : Ex} (h : e.Printable) : Pr false e.rcode e.itoks := .lexP h.noBreak (Printable.lexP h.1)

theorem Pr.tight {e : Ex} (h : e.Printable ∧ e.Tight) : Pr false (delSpace e.rcode) e.itoks :=
  .lexP (fun c hc => h.1.noBreak c (List.mem_of_mem_filter hc)) (Tight.lexP h.1.1 h.2)

/-- ` = ` -/
theorem Pr.eqs {f : Bool} : Pr f " = ".toList [.p .equals] := by
  refine ⟨NoBreak.lit _ (by decide), _, .refl _, fun r ts _ hl => ?_⟩
  rw [show " = ".toList = [' ', '=', ' '] from rfl]
  exact Lx.sp1 (Lx.eqs (fun c hc => by simp at hc; subst hc; decide) (Lx.sp1 hl))

/-- An indented text on a line of its own. -/
theorem Pr.line {f : Bool} {a : Str} {A : List Tok} (h : Pr f a A) : Pr f ('\n' :: indentN 2 a) A := by
  obtain ⟨h1, raw, h2, h3⟩ := h
  obtain ⟨l1, l2⟩ := line_re h2 h1
  exact ⟨l2, _, l1, fun r ts hf hl => Lx.nl (h3 r ts hf hl)⟩

theorem Pr.toLex {a : Str} {A : List Tok} (h : Pr false a A) : lex a = some A := by
  obtain ⟨_, raw, h2, h3⟩ := h
  rw [lex_reindent h2]
  have := h3 [] [] (fun _ => by intro c hc; simp at hc) .nil
  rw [List.append_nil, List.append_nil] at this
  exact this.toLex

/-- The tokens of a range. -/
def rngToks (r : WRange) : List Tok := [.p .lbracket] ++ (r.1.itoks ++ ([.p .colon] ++ (r.2.itoks ++ [.p .rbracket])))

theorem rng_pr {f : Bool} {r : WRange} (h : RngOK r) : Pr f (rngCode r) (rngToks r) := by
  have e : rngCode r = ['['] ++ (delSpace r.1.rcode ++ ([':'] ++ (delSpace r.2.rcode ++ [']']))) := by
    simp [rngCode]
  rw [e]
  refine Pr.app (.ch .lbracket '[' rfl rfl rfl) (Pr.appD (.tight h.1) (Pr.app (.ch .colon ':' rfl rfl rfl)
    (Pr.appD (.tight h.2) (.ch .rbracket ']' rfl rfl rfl) ?_)) ?_)
  · exact DHead.cons _ (by decide)
  · exact DHead.cons _ (by decide)

theorem rng_dhead (r : WRange) : DHead (rngCode r) := DHead.cons _ (by decide)

/-- The tokens of an optional width. -/
def widthToks : Option WRange → List Tok
  | none => []
  | some r => rngToks r

theorem width_pr {f : Bool} {w : Option WRange} (h : ∀ r, w = some r → RngOK r) : Pr f (widthCode w) (widthToks w) := by
  cases w with
  | none => exact .nil
  | some r =>
    have := Pr.app (rng_pr (f := true) (h r rfl)) (Pr.ws (f := f) [' '] (by simp))
    simpa [widthCode, widthToks] using this

/-- The tokens of `signed`. -/
def signedToks (b : Bool) : List Tok := if b then [.kw "signed".toList] else []

theorem signed_pr {f : Bool} (b : Bool) : Pr f (signedCode b) (signedToks b) := by
  cases b with
  | false => exact .nil
  | true => exact Pr.kws (w := "signed".toList) (by decide)

/-- The tokens of dimensions. -/
def dimsToks : Option (List WRange) → List Tok
  | none => []
  | some ls => ls.flatMap rngToks

theorem rngs_pr {f : Bool} (ls : List WRange) (h : ∀ r ∈ ls, RngOK r) : Pr f (ls.flatMap rngCode) (ls.flatMap rngToks) := by
  induction ls with
  | nil => exact .nil
  | cons r ls ih =>
    simp only [List.flatMap_cons]
    exact Pr.app (rng_pr (h r (by simp))) (ih (fun r hr => h r (by simp [hr])))

theorem dims_pr {d : Option (List WRange)} (h : ∀ ls, d = some ls → ls ≠ [] ∧ ∀ r ∈ ls, RngOK r) :
    (d = none ∧ dimsCode d = []) ∨ (Pr true (dimsCode d) (dimsToks d) ∧ DHead (dimsCode d)) := by
  cases d with
  | none => exact .inl ⟨rfl, rfl⟩
  | some ls =>
    right
    obtain ⟨hne, hr⟩ := h ls rfl
    have hn : ls.flatMap rngCode ≠ [] := by
      cases ls with
      | nil => exact absurd rfl hne
      | cons r ls => simp [rngCode]
    simp only [dimsCode, if_neg hn]
    exact ⟨Pr.app (.ws [' '] (by simp)) (rngs_pr ls hr), DHead.cons _ (by decide)⟩

/-- The tokens of a name and its dimensions. -/
theorem name_dims_pr {n : Str} {d : Option (List WRange)} (hn : NameOK n) (h : ∀ ls, d = some ls → ls ≠ [] ∧ ∀ r ∈ ls, RngOK r) :
    Pr false (escape n ++ dimsCode d) ([.id n] ++ dimsToks d) := by
  rcases dims_pr h with ⟨rfl, e⟩ | ⟨h1, h2⟩
  · rw [e]; simpa [dimsToks] using Pr.name hn
  · exact Pr.appD (.name hn) h1.weak h2

theorem word_reserved (k : SigKind) : k.word ∈ reservedWords := by cases k <;> decide

theorem semi_pr {f : Bool} : Pr f [';'] [.p .semicolon] := .ch .semicolon ';' rfl rfl rfl
theorem semi_dhead : DHead [';'] := DHead.cons _ (by decide)

/-- The tokens of a declared signal. -/
def Var.toks (v : Var) : List Tok :=
  [.kw v.kind.word] ++ (signedToks v.signed ++ (widthToks v.width ++ (([.id v.name] ++ dimsToks v.dims) ++ [.p .semicolon])))

theorem var_pr {f : Bool} {v : Var} (h : v.OK) : Pr f v.code v.toks := by
  have e : v.code = (v.kind.word ++ [' ']) ++ (signedCode v.signed ++ (widthCode v.width ++ ((escape v.name ++ dimsCode v.dims) ++ [';']))) := by
    simp [Var.code]
  rw [e]
  exact .app (.kws (word_reserved _)) (.app (signed_pr _) (.app (width_pr h.2.1) (.appD (name_dims_pr h.1 h.2.2) semi_pr semi_dhead)))

/-- The tokens of a parameter up to its value. -/
def Param.ptoks (loc : Bool) (p : Param) : List Tok :=
  [.kw (if loc then "localparam".toList else "parameter".toList)] ++
    (signedToks p.signed ++ (widthToks p.width ++ ([.id p.name] ++ ([.p .equals] ++ p.value.itoks))))

/-- The text of a parameter up to its value. -/
def Param.pcode (loc : Bool) (p : Param) : Str :=
  (if loc then "localparam ".toList else "parameter ".toList) ++ (signedCode p.signed ++ (widthCode p.width ++
    (escape p.name ++ (" = ".toList ++ p.value.rcode))))

theorem param_code {p : Param} (h : p.OK) (loc : Bool) : p.code loc = p.pcode loc ++ [';'] := by
  have : (if p.value.rcode.head? = some '"' ∧ p.value.rcode.getLast? = some '"' then [] else widthCode p.width) = widthCode p.width := by
    split
    · next hq =>
      cases hw : p.width with
      | none => rfl
      | some r => exact absurd hq (h.2.2 r hw).2
    · rfl
  simp only [Param.code, this, Param.pcode, List.append_assoc]

theorem pcode_pr {p : Param} (h : p.OK) (loc : Bool) : Pr false (p.pcode loc) (p.ptoks loc) := by
  have hk : Pr true (if loc then "localparam ".toList else "parameter ".toList) [.kw (if loc then "localparam".toList else "parameter".toList)] := by
    cases loc
    · exact Pr.kws (w := "parameter".toList) (by decide)
    · exact Pr.kws (w := "localparam".toList) (by decide)
  exact .app hk (.app (signed_pr _) (.app (width_pr (fun r hr => (h.2.2 r hr).1)) (.appD (.name h.1) (.app .eqs (.expr h.2.1))
    (DHead.cons _ (by decide)))))

theorem assign_pr {f : Bool} {l r : Ex} (h : AssignOK l r) :
    Pr f (assignItemCode l r) ([.kw "assign".toList] ++ (l.itoks ++ .p .equals :: (r.itoks ++ [.p .semicolon]))) := by
  have hb : NoBreak ("assign ".toList ++ l.rcode ++ " = ".toList ++ r.rcode ++ ";".toList) :=
    (((((NoBreak.lit _ (by decide)).append h.1.noBreak).append (NoBreak.lit _ (by decide))).append h.2.2.noBreak).append (NoBreak.lit _ (by decide)))
  have hre := indentAssign_re _ hb
  unfold assignItemCode
  refine ⟨hre.noBreak hb, _, hre, fun rest ts _ hl => ?_⟩
  have h1 : Lx (';' :: rest) (.p .semicolon :: ts) := Lx.ch .semicolon ';' rfl rfl hl
  have h2 := Printable.lexP h.2.2.1 (';' :: rest) _ (Delim.cons _ (by decide)) h1
  have h3 := Lx.sp1 (Lx.eqs (r := ' ' :: _) (fun c hc => by simp at hc; subst hc; decide) (Lx.sp1 h2))
  have h4 := Printable.lexP h.1.1 (' ' :: _) _ (Delim.cons _ (by decide)) h3
  have h5 := Lx.kw (w := "assign".toList) (by decide) (r := ' ' :: _) (by simp; decide) (Lx.sp1 h4)
  rw [show "assign ".toList = "assign".toList ++ [' '] from rfl, show " = ".toList = [' ', '=', ' '] from rfl, show ";".toList = [';'] from rfl]
  simp only [List.append_assoc, List.cons_append, List.nil_append] at h5 ⊢
  exact h5

/-- The tokens of an item of a declaration. -/
def DItem.toks : DItem → List Tok
  | .var v => v.toks
  | .int n _ => [.kw "integer".toList] ++ ([.id n] ++ [.p .semicolon])
  | .genvar n => [.kw "genvar".toList] ++ ([.id n] ++ [.p .semicolon])
  | .param loc p => p.ptoks loc ++ [.p .semicolon]
  | .assign l r => [.kw "assign".toList] ++ (l.itoks ++ .p .equals :: (r.itoks ++ [.p .semicolon]))
  | .real _ => []
  | .supply _ _ _ _ => []

theorem ditem_pr {f : Bool} {d : DItem} (h : d.OK) : Pr f d.code d.toks := by
  cases d with
  | var v => exact var_pr h
  | int n e =>
    have := Pr.app (Pr.kws (f := true) (w := "integer".toList) (by decide)) (.appD (.name h.1) (semi_pr (f := f)) semi_dhead)
    exact this
  | genvar n =>
    have := Pr.app (Pr.kws (f := true) (w := "genvar".toList) (by decide)) (.appD (.name h) (semi_pr (f := f)) semi_dhead)
    exact this
  | param loc p =>
    have hp : p.OK := h
    have e : (DItem.param loc p).code = p.pcode loc ++ [';'] := param_code hp loc
    rw [e]
    exact Pr.appD (pcode_pr hp loc) semi_pr semi_dhead
  | assign l r =>
    have ha : AssignOK l r := h
    exact assign_pr ha
  | real => exact h.elim
  | supply => exact h.elim

theorem decl_pr {f : Bool} (ds : List DItem) (h : ∀ d ∈ ds, d.OK) : Pr f (declCode ds) (ds.flatMap DItem.toks) := by
  unfold declCode
  induction ds with
  | nil => exact .nil
  | cons d ds ih =>
    simp only [List.flatMap_cons]
    exact .app (ditem_pr (h d (by simp))) (ih (fun d hd => h d (by simp [hd])))

/-- The tokens of a signal of a sensitivity list. -/
def SensItem.toks : SensItem → List Tok
  | .all => [.p .times]
  | .posedge e => [.kw "posedge".toList] ++ e.itoks
  | .negedge e => [.kw "negedge".toList] ++ e.itoks
  | .level e => e.itoks

/-- The tokens of a sensitivity list. -/
def sensToks : List SensItem → List Tok
  | [] => []
  | [s] => s.toks
  | s :: t :: r => s.toks ++ ([.kw "or".toList] ++ sensToks (t :: r))

theorem base_unwrapped {e : Ex} (h : e.isBase = true ∨ ∃ v m l, e = .psel v m l) : e.wrapped = false := by
  rcases h with h | ⟨_, _, _, rfl⟩
  · cases e <;> first | rfl | (simp [Ex.isBase] at h)
  · rfl

theorem code_pr {e : Ex} (h : e.Printable) (hb : e.isBase = true ∨ ∃ v m l, e = .psel v m l) : Pr false e.code e.itoks := by
  rw [← rcode_unwrapped e h.1 (base_unwrapped hb)]
  exact .expr h

theorem sens_pr {s : SensItem} (h : s.EdgeOK ∨ s.LevelOK) : Pr false s.code s.toks := by
  cases s with
  | all => rcases h with h | h <;> exact h.elim
  | posedge e =>
    rcases h with h | h
    · exact .app (Pr.kws (w := "posedge".toList) (by decide)) (code_pr h.1 (.inl h.2))
    · exact h.elim
  | negedge e =>
    rcases h with h | h
    · exact .app (Pr.kws (w := "negedge".toList) (by decide)) (code_pr h.1 (.inl h.2))
    · exact h.elim
  | level e =>
    rcases h with h | h
    · exact h.elim
    · exact code_pr h.1 h.2

theorem senss_pr (ss : List SensItem) (h : ∀ s ∈ ss, s.EdgeOK ∨ s.LevelOK) : Pr false (sensCode ss) (sensToks ss) := by
  induction ss with
  | nil => exact .nil
  | cons s ss ih =>
    cases ss with
    | nil => exact sens_pr (h s (by simp))
    | cons t ss =>
      have hor : Pr true " or ".toList [.kw "or".toList] := by
        have := Pr.app (Pr.ws (f := true) [' '] (by simp)) (Pr.kws (f := true) (w := "or".toList) (by decide))
        exact this
      have := Pr.appD (sens_pr (h s (by simp))) (.app hor (ih (fun s hs => h s (by simp at hs ⊢; tauto)))) (DHead.cons _ (by decide))
      simpa [sensCode, sensToks] using this

/-- `@(...) ` -/
theorem senslist_pr {f : Bool} {ss : List SensItem} (h : SensOK ss) :
    Pr f (sensCode ss ++ ") ".toList) (sensToks ss ++ [.p .rparen]) := by
  have hr : Pr f ") ".toList [.p .rparen] := by
    have := Pr.app (Pr.ch (f := true) .rparen ')' rfl rfl rfl) (Pr.ws (f := f) [' '] (by simp))
    exact this
  rcases h with rfl | ⟨_, h⟩ | ⟨_, h⟩
  · refine ⟨NoBreak.lit _ (by decide), _, .refl _, fun r ts _ hl => ?_⟩
    have h1 : Lx (')' :: ' ' :: r) (.p .rparen :: ts) := Lx.ch .rparen ')' rfl rfl (Lx.sp1 hl)
    have := Lx.pun .times (r := ')' :: ' ' :: r) (ts := .p .rparen :: ts) (fun c hc => by
      simp only [List.head?_cons, Option.some.injEq] at hc
      subst hc
      decide) h1
    exact this
  · exact .appD (senss_pr ss (fun s hs => .inl (h s hs))) hr (DHead.cons _ (by decide))
  · exact .appD (senss_pr ss (fun s hs => .inr (h s hs))) hr (DHead.cons _ (by decide))

theorem stmt_pr {s : Stmt} (h : s.WF) : Pr false s.code s.toks := by
  obtain ⟨h1, raw, h2, h3⟩ := stmt_print s h
  exact ⟨h1, raw, h2, fun r ts hd hl => h3 r ts (hd rfl) hl⟩

theorem nl_pr {f : Bool} : Pr f ['\n'] [] := .ws _ (by simp)
theorem nl_dhead (s : Str) : DHead ('\n' :: s) := DHead.cons _ (by decide)

/-- The tokens of an argument. -/
def PArg.toks (a : PArg) : List Tok :=
  let v := match a.arg with | none => [] | some e => e.itoks
  match a.name with
  | none => v
  | some n => [.p .dot, .id n] ++ ([.p .lparen] ++ (v ++ [.p .rparen]))

theorem escape_ne_nil {n : Str} (h : NameOK n) : escape n ≠ [] := by
  obtain ⟨c, t, e, _⟩ := h.1.code_head
  rw [e]; simp

theorem arg_pr {opt : Bool} {as : List PArg} (h : ArgsOK opt as) {a : PArg} (ha : a ∈ as) : Pr false a.code a.toks := by
  obtain ⟨h1, h2⟩ := h
  obtain ⟨nm, ar⟩ := a
  rcases h2 with h2 | h2
  · obtain ⟨⟨n, e, hn⟩, _⟩ := h2 _ ha
    simp only at e
    subst e
    have e : (PArg.mk (some n) ar).code = ('.' :: escape n) ++ (['('] ++ (argCode ar ++ [')'])) := by
      simp [PArg.code, escape_ne_nil hn]
    rw [e]
    refine .appD (.dot hn) (.app (.ch .lparen '(' rfl rfl rfl) ?_) (DHead.cons _ (by decide))
    cases ar with
    | none => exact .ch .rparen ')' rfl rfl rfl
    | some x => exact .appD (.expr (h1 _ ha x rfl)) (.ch .rparen ')' rfl rfl rfl) (DHead.cons _ (by decide))
  · obtain ⟨e, hne⟩ := h2 _ ha
    simp only at e
    subst e
    cases ar with
    | none => exact absurd rfl hne
    | some x => exact .expr (h1 _ ha x rfl)

theorem commaLines_pr (xs : List (Str × List Tok)) (h : ∀ x ∈ xs, Pr false ('\n' :: x.1) x.2) :
    Pr false (commaLines (xs.map Prod.fst)) (commaT (xs.map Prod.snd)) := by
  induction xs with
  | nil => exact .nil
  | cons x xs ih =>
    cases xs with
    | nil => exact h x (by simp)
    | cons y ys =>
      have := Pr.appD (h x (by simp)) (.app (.ch .comma ',' rfl rfl rfl) (ih (fun z hz => h z (by simp at hz ⊢; tauto)))) (DHead.cons _ (by decide))
      simpa [commaLines, commaT] using this

theorem args_pr {opt : Bool} {as : List PArg} (h : ArgsOK opt as) :
    Pr false (commaLines (as.map (fun a => indentN 2 a.code))) (commaT (as.map PArg.toks)) := by
  have := commaLines_pr (as.map (fun a => (indentN 2 a.code, a.toks))) (by
    intro x hx
    obtain ⟨a, ha, rfl⟩ := List.mem_map.mp hx
    exact (arg_pr h ha).line)
  simpa [Function.comp_def] using this

/-- The tokens of an instance. -/
def Inst.toks (i : Inst) : List Tok :=
  (if i.name = [] then [] else [.id i.name]) ++ (widthToks i.array ++ ([.p .lparen] ++ (commaT (i.ports.map PArg.toks) ++ [.p .rparen])))

theorem closing_pr {f : Bool} : Pr f "\n)".toList [.p .rparen] := by
  have := Pr.app (nl_pr (f := true)) (Pr.ch (f := f) .rparen ')' rfl rfl rfl)
  exact this

theorem opening_pr {f : Bool} : Pr f "\n(".toList [.p .lparen] := by
  have := Pr.app (nl_pr (f := true)) (Pr.ch (f := f) .lparen '(' rfl rfl rfl)
  exact this

theorem NameOK.ne_nil {n : Str} (h : NameOK n) : n ≠ [] := by
  rintro rfl
  rcases h.1 with ⟨⟨c, t, h, _⟩, _⟩ | ⟨t, h, _⟩ <;> simp at h

/-- The text of the array of an instance. -/
def arrCode : Option WRange → Str
  | none => []
  | some r => rngCode r

theorem inst_pr {f : Bool} {i : Inst} (h : i.OK ∨ (i.name = [] ∧ i.array = none ∧ ArgsOK true i.ports)) : Pr f i.code i.toks := by
  have ht : ∀ {as : List PArg}, ArgsOK true as → Pr f ("\n(".toList ++ (commaLines (as.map (fun a => indentN 2 a.code)) ++ "\n)".toList))
      ([.p .lparen] ++ (commaT (as.map PArg.toks) ++ [.p .rparen])) := by
    intro as ha
    exact .app opening_pr (.appD (args_pr ha) closing_pr (nl_dhead _))
  obtain ⟨n, arr, ports⟩ := i
  rcases h with ⟨hn, ha, hp⟩ | ⟨rfl, rfl, hp⟩
  · have e : (Inst.mk n arr ports).code = escape n ++ (arrCode arr ++ ("\n(".toList ++ (commaLines (ports.map (fun a => indentN 2 a.code)) ++ "\n)".toList))) := by
      cases arr <;> simp only [Inst.code, arrCode, List.append_assoc]
    rw [e]
    have ee : (Inst.mk n arr ports).toks = [.id n] ++ (widthToks arr ++ ([.p .lparen] ++ (commaT (ports.map PArg.toks) ++ [.p .rparen]))) := by
      simp [Inst.toks, hn.ne_nil]
    rw [ee]
    cases arr with
    | none => exact .appD (.name hn) (.app .nil (ht hp)) (nl_dhead _)
    | some r => exact .appD (.name hn) (.app (rng_pr (ha r rfl)) (ht hp)) ((rng_dhead r).app _)
  · have e : (Inst.mk [] none ports).code = ("\n(".toList ++ (commaLines (ports.map (fun a => indentN 2 a.code)) ++ "\n)".toList)) := by
      simp [Inst.code, escape]
    rw [e]
    exact ht hp

/-- The tokens of a list of instances. -/
def instsToks (md : Str) (ps : List PArg) (is : List Inst) : List Tok :=
  [.id md] ++ ((if ps.length > 0 then [.p .delay] ++ ([.p .lparen] ++ (commaT (ps.map PArg.toks) ++ [.p .rparen])) else []) ++
    (commaT (is.map Inst.toks) ++ [.p .semicolon]))

theorem insts_pr {f : Bool} {md : Str} {ps : List PArg} {is : List Inst} (h : (MItem.insts md ps is).Std) :
    Pr f (instsCode md ps is) (instsToks md ps is) := by
  obtain ⟨hm, hps, hne, his⟩ := h
  have hi : ∀ i ∈ is, i.OK ∨ (i.name = [] ∧ i.array = none ∧ ArgsOK true i.ports) := by
    intro i hi
    rcases his with h | h
    · exact .inl (h i hi)
    · exact .inr (h.2 i hi)
  have h1 : Pr false (commaLines (is.map Inst.code)) (commaT (is.map Inst.toks)) := by
    have := commaLines_pr (is.map (fun i => (i.code, i.toks))) (by
      intro x hx
      obtain ⟨i, hi', rfl⟩ := List.mem_map.mp hx
      exact Pr.app nl_pr (inst_pr (hi i hi')))
    simpa [Function.comp_def] using this
  have hd : DHead (commaLines (is.map Inst.code)) := by
    cases is with
    | nil => exact absurd rfl hne
    | cons i is =>
      cases is with
      | nil => exact nl_dhead _
      | cons j is => exact nl_dhead _
  have h2 : Pr f (commaLines (is.map Inst.code) ++ ";\n".toList) (commaT (is.map Inst.toks) ++ [.p .semicolon]) := by
    have : Pr f ";\n".toList [.p .semicolon] := Pr.app (semi_pr (f := true)) (nl_pr (f := f))
    exact .appD h1 this (DHead.cons _ (by decide))
  have h3 : Pr f ((if ps.length > 0 then "\n#(".toList ++ commaLines (ps.map (fun a => indentN 2 a.code)) ++ "\n)".toList else []) ++ (commaLines (is.map Inst.code) ++ ";\n".toList))
      ((if ps.length > 0 then [.p .delay] ++ ([.p .lparen] ++ (commaT (ps.map PArg.toks) ++ [.p .rparen])) else []) ++ (commaT (is.map Inst.toks) ++ [.p .semicolon])) := by
    split
    · have hsh : Pr true "\n#(".toList ([.p .delay] ++ [.p .lparen]) :=
        Pr.app nl_pr (Pr.app (.ch .delay '#' rfl rfl rfl) (.ch .lparen '(' rfl rfl rfl))
      have := Pr.app (Pr.app hsh (Pr.appD (args_pr hps) closing_pr (nl_dhead _))) h2
      simpa only [List.append_assoc] using this
    · exact .app .nil h2
  have hd3 : DHead ((if ps.length > 0 then "\n#(".toList ++ commaLines (ps.map (fun a => indentN 2 a.code)) ++ "\n)".toList else []) ++ (commaLines (is.map Inst.code) ++ ";\n".toList)) := by
    split
    · exact nl_dhead _
    · exact hd.app _
  have e : instsCode md ps is = ['\n'] ++ (escape md ++ ((if ps.length > 0 then "\n#(".toList ++ commaLines (ps.map (fun a => indentN 2 a.code)) ++ "\n)".toList else []) ++ (commaLines (is.map Inst.code) ++ ";\n".toList))) := by
    simp only [instsCode, List.append_assoc, List.cons_append, List.nil_append]
  rw [e]
  have := Pr.app (nl_pr (f := true)) (.appD (.name hm) h3 hd3)
  rw [List.nil_append] at this
  exact this

/-- The tokens of the declarations and the body of a function or task. -/
def fnToks (ds : List (List DItem)) (s : Stmt) : List Tok := ds.flatten.flatMap DItem.toks ++ s.toks

/-- The tokens of the head of a for loop. -/
def forToks (pl pr c ql qr : Ex) : List Tok :=
  .kw "for".toList :: .p .lparen :: (pl.itoks ++ .p .equals :: (pr.itoks ++ .p .semicolon :: (c.itoks ++ .p .semicolon ::
    (ql.itoks ++ .p .equals :: (qr.itoks ++ [.p .rparen])))))

/-- The tokens of a name of a block. -/
def blockNameToks : Option Str → List Tok
  | none => []
  | some n => [.p .colon] ++ [.id n]

mutual
/-- The tokens of an item of a module. -/
def MItem.toks : MItem → List Tok
  | .decl ds => ds.flatMap DItem.toks
  | .assign l r => [.kw "assign".toList] ++ (l.itoks ++ .p .equals :: (r.itoks ++ [.p .semicolon]))
  | .always _ ss s => [.kw "always".toList] ++ ([.p .at] ++ ([.p .lparen] ++ ((sensToks ss ++ [.p .rparen]) ++ s.toks)))
  | .initial s => [.kw "initial".toList] ++ s.toks
  | .insts md ps is => instsToks md ps is
  | .func n ret ds s => [.kw "function".toList] ++ (rngToks ret ++ ([.id n] ++ ([.p .semicolon] ++ (fnToks ds s ++ [.kw "endfunction".toList]))))
  | .task n ds s => [.kw "task".toList] ++ ([.id n] ++ ([.p .semicolon] ++ (fnToks ds s ++ [.kw "endtask".toList])))
  | .gen is => [.kw "generate".toList] ++ (MItem.toksL is ++ [.kw "endgenerate".toList])
  | .gif c t => [.kw "if".toList] ++ ([.p .lparen] ++ (c.itoks ++ ([.p .rparen] ++ t.toks)))
  | .gife c t f => [.kw "if".toList] ++ ([.p .lparen] ++ (c.itoks ++ ([.p .rparen] ++ (t.toks ++ ([.kw "else".toList] ++ f.toks)))))
  | .gfor pl pr c ql qr b => forToks pl pr c ql qr ++ b.toks
  | .gblock name is => [.kw "begin".toList] ++ (blockNameToks name ++ (MItem.toksL is ++ [.kw "end".toList]))
/-- `MItem.toks` on lists. -/
def MItem.toksL : List MItem → List Tok
  | [] => []
  | i :: is => i.toks ++ MItem.toksL is
end

theorem fnLines_cons (d : List DItem) (ds : List (List DItem)) (s : Stmt) :
    fnLines (d :: ds) s = '\n' :: indentN 2 (declCode d) ++ fnLines ds s := rfl

theorem fnLines_pr {ds : List (List DItem)} {s : Stmt} (h : ∀ d ∈ ds.flatten, d.OK) (hs : s.WF) : Pr false (fnLines ds s) (fnToks ds s) := by
  induction ds with
  | nil =>
    have e : fnLines [] s = '\n' :: indentN 2 s.code := by simp [fnLines, linesCode]
    rw [e]
    exact (stmt_pr hs).line
  | cons d ds ih =>
    rw [fnLines_cons]
    have h1 : ∀ x ∈ d, x.OK := fun x hx => h x (by simp [hx])
    have := Pr.app (decl_pr (f := true) d h1).line (ih (fun x hx => h x (by simp only [List.flatten_cons, List.mem_append]; exact .inr hx)))
    simpa only [fnToks, List.flatten_cons, List.flatMap_append, List.append_assoc] using this

theorem fnLines_dhead (ds : List (List DItem)) (s : Stmt) : DHead (fnLines ds s) := by
  cases ds with
  | nil => exact nl_dhead _
  | cons d ds => exact nl_dhead _

/-- A newline, a keyword and a newline. -/
theorem nlkw_pr {f : Bool} {w : Str} (hw : w ∈ reservedWords) : Pr f ('\n' :: (w ++ ['\n'])) [.kw w] :=
  Pr.app (a := ['\n']) (A := []) nl_pr (Pr.appD (B := []) (Pr.kw hw) nl_pr (nl_dhead _))

/-- The same with more in front of the first newline. -/
theorem fnRest_pr {f : Bool} {ds : List (List DItem)} {s : Stmt} (h : ∀ d ∈ ds.flatten, d.OK) (hs : s.WF) {w : Str} (hw : w ∈ reservedWords)
    {n : Str} (hn : NameOK n) :
    Pr f (escape n ++ ([';'] ++ (fnLines ds s ++ '\n' :: (w ++ ['\n'])))) ([.id n] ++ ([.p .semicolon] ++ (fnToks ds s ++ [.kw w]))) :=
  .appD (.name hn) (.app semi_pr (.appD (fnLines_pr h hs) (nlkw_pr hw) (nl_dhead _))) semi_dhead

theorem text_function : "\nfunction ".toList = ['\n'] ++ ("function".toList ++ [' ']) := rfl
theorem text_endfunction : "\nendfunction\n".toList = '\n' :: ("endfunction".toList ++ ['\n']) := rfl
theorem text_task : "\ntask ".toList = ['\n'] ++ ("task".toList ++ [' ']) := rfl
theorem text_endtask : "\nendtask\n".toList = '\n' :: ("endtask".toList ++ ['\n']) := rfl
theorem text_generate : "\ngenerate ".toList = ['\n'] ++ ("generate".toList ++ [' ']) := rfl
theorem text_endgenerate : "\nendgenerate\n".toList = '\n' :: ("endgenerate".toList ++ ['\n']) := rfl
theorem mem_function : "function".toList ∈ reservedWords := by decide
theorem mem_endfunction : "endfunction".toList ∈ reservedWords := by decide
theorem mem_task : "task".toList ∈ reservedWords := by decide
theorem mem_endtask : "endtask".toList ∈ reservedWords := by decide
theorem mem_generate : "generate".toList ∈ reservedWords := by decide
theorem mem_endgenerate : "endgenerate".toList ∈ reservedWords := by decide

/-- A newline, a keyword and a space. -/
theorem nlkws_pr {f : Bool} {w : Str} (hw : w ∈ reservedWords) : Pr f (['\n'] ++ (w ++ [' '])) [.kw w] :=
  Pr.app (A := []) nl_pr (Pr.kws hw)

theorem func_pr {f : Bool} {n : Str} {ret : WRange} {ds : List (List DItem)} {s : Stmt} (hn : NameOK n) (hr : RngOK ret)
    (hd : ∀ d ∈ ds.flatten, d.OK) (hs : s.WF) : Pr f (funcCode n ret ds s)
    ([.kw "function".toList] ++ (rngToks ret ++ ([.id n] ++ ([.p .semicolon] ++ (fnToks ds s ++ [.kw "endfunction".toList]))))) := by
  unfold funcCode
  rw [text_function, text_endfunction]
  have m1 := mem_function
  have m2 := mem_endfunction
  generalize "function".toList = w1 at *
  generalize "endfunction".toList = w2 at *
  have := Pr.app (nlkws_pr (f := true) m1) (.app (rng_pr (f := true) hr) (.app (.ws [' '] (by simp)) (fnRest_pr (f := f) hd hs m2 hn)))
  simpa only [List.append_assoc, List.cons_append, List.nil_append] using this

theorem task_pr {f : Bool} {n : Str} {ds : List (List DItem)} {s : Stmt} (hn : NameOK n)
    (hd : ∀ d ∈ ds.flatten, d.OK) (hs : s.WF) : Pr f (taskCode n ds s)
    ([.kw "task".toList] ++ ([.id n] ++ ([.p .semicolon] ++ (fnToks ds s ++ [.kw "endtask".toList])))) := by
  unfold taskCode
  rw [text_task, text_endtask]
  have m1 := mem_task
  have m2 := mem_endtask
  generalize "task".toList = w1 at *
  generalize "endtask".toList = w2 at *
  have := Pr.app (nlkws_pr (f := true) m1) (fnRest_pr (f := f) hd hs m2 hn)
  simpa only [List.append_assoc, List.cons_append, List.nil_append] using this

theorem always_pr {f : Bool} {ss : List SensItem} {s : Stmt} (h1 : SensOK ss) (h2 : s.WF) : Pr f (alwaysCode .always ss s)
    ([.kw "always".toList] ++ ([.p .at] ++ ([.p .lparen] ++ ((sensToks ss ++ [.p .rparen]) ++ s.toks)))) := by
  have ha : Pr true "\nalways @(".toList ([.kw "always".toList] ++ ([.p .at] ++ [.p .lparen])) :=
    Pr.app (a := ['\n']) (A := []) nl_pr (Pr.app (a := "always".toList ++ [' ']) (b := ['@'] ++ ['(']) (Pr.kws (by decide))
      (Pr.app (.ch .at '@' rfl rfl rfl) (.ch .lparen '(' rfl rfl rfl)))
  have hs : Pr f (s.code ++ ['\n']) (s.toks ++ []) := Pr.appD (stmt_pr h2) nl_pr (nl_dhead _)
  have hl : Pr true (sensCode ss ++ ") ".toList) (sensToks ss ++ [.p .rparen]) := senslist_pr h1
  have := Pr.app ha (Pr.app hl hs)
  simp only [List.append_assoc, List.append_nil] at this
  unfold alwaysCode
  simp only [List.append_assoc]
  exact this

theorem initial_pr {f : Bool} {s : Stmt} (hw : s.WF) : Pr f ("\ninitial ".toList ++ s.code ++ ['\n']) ([.kw "initial".toList] ++ s.toks) := by
  have ha : Pr true "\ninitial ".toList [.kw "initial".toList] :=
    Pr.app (a := ['\n']) (A := []) nl_pr (Pr.kws (w := "initial".toList) (by decide))
  have hs : Pr f (s.code ++ ['\n']) (s.toks ++ []) := Pr.appD (stmt_pr hw) nl_pr (nl_dhead _)
  have := Pr.app ha hs
  simp only [List.append_nil] at this
  simp only [List.append_assoc]
  exact this

theorem code_decl (ds : List DItem) : (MItem.decl ds).code = declCode ds := rfl
theorem code_assign (l r : Ex) : (MItem.assign l r).code = assignItemCode l r := rfl
theorem code_always (k : AlwaysKind) (ss : List SensItem) (s : Stmt) : (MItem.always k ss s).code = alwaysCode k ss s := rfl
theorem code_initial (s : Stmt) : (MItem.initial s).code = "\ninitial ".toList ++ s.code ++ ['\n'] := rfl
theorem code_insts (m : Str) (ps : List PArg) (is : List Inst) : (MItem.insts m ps is).code = instsCode m ps is := rfl
theorem code_func (n : Str) (r : WRange) (ds : List (List DItem)) (s : Stmt) : (MItem.func n r ds s).code = funcCode n r ds s := rfl
theorem code_task (n : Str) (ds : List (List DItem)) (s : Stmt) : (MItem.task n ds s).code = taskCode n ds s := rfl
theorem code_gen (is : List MItem) : (MItem.gen is).code = "\ngenerate ".toList ++ (MItem.codes is).flatten ++ "\nendgenerate\n".toList := rfl
theorem code_gif (c : Ex) (t : MItem) : (MItem.gif c t).code = ifCode c.rcode t.code [] := rfl
theorem code_gife (c : Ex) (t f : MItem) : (MItem.gife c t f).code = ifCode c.rcode t.code f.code := rfl
theorem code_gfor (pl pr c ql qr : Ex) (b : MItem) :
    (MItem.gfor pl pr c ql qr b).code = forCode (assignCode false pl pr) c.rcode (assignCode false ql qr) b.code := rfl
theorem code_gblock (n : Option Str) (is : List MItem) : (MItem.gblock n is).code = blockCode n (MItem.codes is) := rfl
theorem codes_cons (i : MItem) (is : List MItem) : MItem.codes (i :: is) = i.code :: MItem.codes is := rfl

theorem std_pr {f : Bool} {i : MItem} (h : i.Std) : Pr f i.code i.toks := by
  cases i with
  | decl ds => exact decl_pr ds h
  | assign l r => exact assign_pr h
  | always k ss s =>
    obtain ⟨rfl, h1, h2⟩ := h
    exact always_pr h1 h2.1
  | initial s => exact initial_pr h
  | insts md ps is => exact insts_pr h
  | func n ret ds s => exact func_pr h.1 h.2.1 (fun d hd' => (h.2.2.2.1 d hd').1) h.2.2.2.2.1
  | task n ds s => exact task_pr h.1 (fun d hd' => (h.2.1 d hd').1) h.2.2.1
  | gen is => exact h.elim
  | gif c t => exact h.elim
  | gife c t f => exact h.elim
  | gfor pl pr c ql qr b => exact h.elim
  | gblock n is => exact h.elim

/-- A text and a space. -/
theorem Pr.sp {f : Bool} {a : Str} {A : List Tok} (h : Pr false a A) : Pr f (a ++ [' ']) A := by
  have := Pr.appD h (Pr.ws (f := f) [' '] (by simp)) (DHead.cons _ (by decide))
  rwa [List.append_nil] at this

/-- The space between the branches of an if (codegen.py:721-732). -/
def gap (t : Str) : Str := if t.getLast? = some ' ' ∨ t.getLast? = some '\n' then [] else [' ']

theorem gap_pr {f e : Bool} {t : Str} {A : List Tok} (h : Pr (!e) t A) (he : e = true → t.getLast? = some 'd') : Pr f (t ++ gap t) A := by
  cases e with
  | true =>
    have : gap t = [' '] := by
      unfold gap
      rw [he rfl]
      rfl
    rw [this]
    exact h.sp
  | false =>
    have h1 := Pr.app (f := f) (B := []) h (Pr.ws (gap t) (by
      intro c hc
      unfold gap at hc
      split at hc
      · simp at hc
      · simp at hc; exact .inl hc))
    rwa [List.append_nil] at h1

theorem text_if : "if(".toList = "if".toList ++ ['('] := rfl
theorem text_for : "for(".toList = "for".toList ++ ['('] := rfl
theorem text_close : ") ".toList = [')'] ++ [' '] := rfl
theorem text_semi : "; ".toList = [';'] ++ [' '] := rfl
theorem text_else : "else ".toList = "else".toList ++ [' '] := rfl
theorem text_end : "\nend".toList = ['\n'] ++ "end".toList := rfl
theorem text_colon : " : ".toList = [' '] ++ ([':'] ++ [' ']) := rfl
theorem mem_if : "if".toList ∈ reservedWords := by decide
theorem mem_for : "for".toList ∈ reservedWords := by decide
theorem mem_else : "else".toList ∈ reservedWords := by decide
theorem mem_begin : "begin".toList ∈ reservedWords := by decide
theorem mem_end : "end".toList ∈ reservedWords := by decide

theorem lparen_pr {f : Bool} : Pr f ['('] [.p .lparen] := .ch .lparen '(' rfl rfl rfl

theorem closeSp_pr {f : Bool} : Pr f ([')'] ++ [' ']) [.p .rparen] :=
  Pr.app (B := []) (.ch .rparen ')' rfl rfl rfl) (.ws [' '] (by simp))

theorem semiSp_pr {f : Bool} : Pr f ([';'] ++ [' ']) [.p .semicolon] :=
  Pr.app (B := []) semi_pr (.ws [' '] (by simp))

theorem ifHead_pr {f : Bool} {c : Ex} {b : Str} {B : List Tok} (hc : c.Printable) (h : Pr f b B) :
    Pr f ("if(".toList ++ (c.rcode ++ (") ".toList ++ b))) ([.kw "if".toList] ++ ([.p .lparen] ++ (c.itoks ++ ([.p .rparen] ++ B)))) := by
  rw [text_if, text_close]
  have m1 := mem_if
  generalize "if".toList = w at *
  have := Pr.appD (Pr.kw m1) (.app lparen_pr (.appD (Pr.expr hc) (.app closeSp_pr h) (DHead.cons _ (by decide)))) (DHead.cons _ (by decide))
  simpa only [List.append_assoc] using this

theorem gif_pr {f e : Bool} {c : Ex} {t : Str} {A : List Tok} (hc : c.Printable) (h : Pr (!e) t A) (he : e = true → t.getLast? = some 'd') :
    Pr f (ifCode c.rcode t []) ([.kw "if".toList] ++ ([.p .lparen] ++ (c.itoks ++ ([.p .rparen] ++ A)))) := by
  have e : ifCode c.rcode t [] = "if(".toList ++ (c.rcode ++ (") ".toList ++ (t ++ gap t))) := by
    unfold ifCode gap
    simp only [ne_eq, not_true_eq_false, and_false, if_false, List.append_nil, List.append_assoc]
  rw [e]
  exact ifHead_pr hc (gap_pr h he)

theorem gife_pr {f e : Bool} {c : Ex} {t u : Str} {A B : List Tok} (hc : c.Printable) (h : Pr (!e) t A) (he : e = true → t.getLast? = some 'd')
    (hu : Pr f u B) (hne : u ≠ []) :
    Pr f (ifCode c.rcode t u) ([.kw "if".toList] ++ ([.p .lparen] ++ (c.itoks ++ ([.p .rparen] ++ (A ++ ([.kw "else".toList] ++ B)))))) := by
  have e1 : ifCode c.rcode t u = "if(".toList ++ (c.rcode ++ (") ".toList ++ ((t ++ gap t) ++
      ((if '\n' ∉ t ∧ u ≠ [] then ['\n'] else []) ++ ("else ".toList ++ u))))) := by
    unfold ifCode gap
    rw [if_pos hne]
    simp only [List.append_assoc]
  rw [e1]
  refine ifHead_pr hc (.app (gap_pr h he) ?_)
  have hws : Pr true (if '\n' ∉ t ∧ u ≠ [] then ['\n'] else []) [] := .ws _ (by
    intro c hc
    split at hc
    · simp at hc; exact .inr hc
    · simp at hc)
  rw [text_else]
  exact Pr.app (A := []) (B := [.kw "else".toList] ++ _) hws (.app (Pr.kws mem_else) hu)

theorem gfor_pr {f : Bool} {pl pr c ql qr : Ex} {b : Str} {B : List Tok} (h : ForOK pl pr c ql qr) (hb : Pr f b B) :
    Pr f (forCode (assignCode false pl pr) c.rcode (assignCode false ql qr) b) (forToks pl pr c ql qr ++ B) := by
  obtain ⟨_, _, hp, hqs, hrs⟩ := h
  have h1 := hp pl (by simp)
  have h2 := hp pr (by simp)
  have h3 := hp c (by simp)
  have h4 := hp ql (by simp)
  have h5 := hp qr (by simp)
  unfold forCode
  rw [for_asg h1 h2, for_post h4 h5 hqs hrs, text_for, text_close, text_semi]
  have m1 := mem_for
  have hds : ∀ e : Ex, e.Printable → NoBreak (delSpace e.rcode) := fun e he c hc => he.noBreak c (List.mem_of_mem_filter hc)
  have heq : ∀ x : Str, NoBreak x → NoBreak ('=' :: x) := fun x hx => (NoBreak.lit ['='] (by decide)).append hx
  have q1 := Pr.lexP ((hds _ h1.1).append (heq _ (hds _ h2.1))) (tight_asg ⟨h1.1.1, h1.2⟩ ⟨h2.1.1, h2.2⟩)
  have q2 := Pr.lexP ((hds _ h4.1).append (heq _ (hds _ h5.1))) (tight_asg ⟨h4.1.1, h4.2⟩ ⟨h5.1.1, h5.2⟩)
  unfold forToks
  generalize "for".toList = w at *
  have := Pr.appD (Pr.kw m1) (.app lparen_pr (.appD q1 (.app semiSp_pr (.appD (Pr.tight h3) (.app semiSp_pr
    (.appD q2 (.app closeSp_pr hb) (DHead.cons _ (by decide)))) (DHead.cons _ (by decide)))) (DHead.cons _ (by decide)))) (DHead.cons _ (by decide))
  simpa only [List.append_assoc, List.cons_append, List.nil_append] using this

theorem ats_iff (is : List MItem) : MItem.Ats is ↔ ∀ i ∈ is, i.At false := by
  induction is with
  | nil => exact ⟨fun _ _ h => absurd h (by simp), fun _ => trivial⟩
  | cons i is ih =>
    rw [show MItem.Ats (i :: is) = (i.At false ∧ MItem.Ats is) from rfl, ih]
    simp

/-- The items of a block, each on a line of its own. -/
theorem glines_pr {f : Bool} {is : List MItem} (h : ∀ i ∈ is, Pr false i.code i.toks) {b : Str} {B : List Tok} (hb : Pr f b B) (hd : DHead b) :
    Pr f (linesCode ((MItem.codes is).map (indentN 2)) ++ b) (MItem.toksL is ++ B) ∧ DHead (linesCode ((MItem.codes is).map (indentN 2)) ++ b) := by
  induction is with
  | nil => exact ⟨hb, hd⟩
  | cons i is ih =>
    have e : linesCode ((MItem.codes (i :: is)).map (indentN 2)) = '\n' :: indentN 2 i.code ++ linesCode ((MItem.codes is).map (indentN 2)) := rfl
    have e2 : MItem.toksL (i :: is) = i.toks ++ MItem.toksL is := rfl
    obtain ⟨i1, i2⟩ := ih (fun j hj => h j (by simp [hj]))
    rw [e, e2, List.append_assoc, List.append_assoc]
    exact ⟨.appD (h i (by simp)).line i1 i2, nl_dhead _⟩

/-- The name of a block. -/
def blockNameCode : Option Str → Str
  | none => []
  | some n => " : ".toList ++ escape n

theorem block_code (name : Option Str) (ss : List Str) :
    blockCode name ss = "begin".toList ++ blockNameCode name ++ linesCode (ss.map (indentN 2)) ++ "\nend".toList := by
  cases name <;> rfl

theorem blockName_pr {f : Bool} {n : Option Str} (hn : ∀ x, n = some x → NameOK x) {b : Str} {B : List Tok} (hb : Pr f b B) (hd : DHead b) :
    Pr f (blockNameCode n ++ b) (blockNameToks n ++ B) ∧ DHead (blockNameCode n ++ b) := by
  cases n with
  | none => exact ⟨hb, hd⟩
  | some n =>
    have hc : Pr true " : ".toList [.p .colon] :=
      Pr.app (A := []) (.ws [' '] (by simp)) (.app (B := []) (.ch .colon ':' rfl rfl rfl) (.ws [' '] (by simp)))
    have := Pr.app hc (.appD (.name (hn n rfl)) hb hd)
    simp only [List.append_assoc, blockNameToks, blockNameCode]
    exact ⟨this, DHead.cons _ (by decide)⟩

theorem gblock_pr {n : Option Str} {is : List MItem} (hn : ∀ x, n = some x → NameOK x) (h : ∀ i ∈ is, Pr false i.code i.toks) :
    Pr false (MItem.gblock n is).code (MItem.gblock n is).toks := by
  rw [code_gblock, block_code, text_end, show (MItem.gblock n is).toks = [.kw "begin".toList] ++ (blockNameToks n ++ (MItem.toksL is ++ [.kw "end".toList])) from rfl]
  have m1 := mem_begin
  have m2 := mem_end
  generalize "begin".toList = w1 at *
  generalize "end".toList = w2 at *
  have q1 : Pr false (['\n'] ++ w2) [.kw w2] := Pr.app (A := []) nl_pr (Pr.kw m2)
  obtain ⟨q2, d2⟩ := glines_pr h q1 (nl_dhead _)
  obtain ⟨q3, d3⟩ := blockName_pr hn q2 d2
  simp only [List.append_assoc] at q3 d3 ⊢
  exact .appD (Pr.kw m1) q3 d3

theorem last_append {a b : Str} {c : Char} (h : b.getLast? = some c) : (a ++ b).getLast? = some c := by
  rw [List.getLast?_append, h]; rfl

/-- The text of an item ends with `end`. -/
theorem endsBlock_last (i : MItem) : i.endsBlock = true → i.code.getLast? = some 'd' := by
  induction i using MItem.ind with
  | gblock n is => intro _; rw [code_gblock]; unfold blockCode; exact last_append rfl
  | gfor pl pr c ql qr b ih => intro h; rw [code_gfor]; unfold forCode; exact last_append (ih h)
  | gife c t f iht ihf =>
    intro h
    have := ihf h
    rw [code_gife]; unfold ifCode
    have hne : f.code ≠ [] := by rintro e; rw [e] at this; simp at this
    rw [if_pos hne]
    exact last_append (last_append this)
  | _ => intro h; cases h

theorem ditem_toks_ne {d : DItem} (h : d.OK) : d.toks ≠ [] := by
  cases d with
  | var v => exact List.cons_ne_nil _ _
  | int n e => exact List.cons_ne_nil _ _
  | genvar n => exact List.cons_ne_nil _ _
  | param loc p => simp [DItem.toks]
  | assign l r => exact List.cons_ne_nil _ _
  | real n => exact h.elim
  | supply a b c d => exact h.elim

/-- A branch is not an empty text. -/
theorem at_toks {i : MItem} (h : i.At true) : i.toks ≠ [] := by
  cases i with
  | decl ds =>
    have h2 : ds.length = 1 := by
      have := h.2 rfl
      simpa [MItem.manyDecl] using this
    obtain ⟨d, rfl⟩ := List.length_eq_one_iff.mp h2
    have e : (MItem.decl [d]).toks = d.toks ++ [] := rfl
    rw [e, List.append_nil]
    have hd : d.OK := h.1 d (by simp)
    exact ditem_toks_ne hd
  | assign l r => exact List.cons_ne_nil _ _
  | always k ss s => exact List.cons_ne_nil _ _
  | initial s => exact List.cons_ne_nil _ _
  | insts m ps is => exact List.cons_ne_nil _ _
  | func n r ds s => exact List.cons_ne_nil _ _
  | task n ds s => exact List.cons_ne_nil _ _
  | gen is => exact List.cons_ne_nil _ _
  | gif c t => exact List.cons_ne_nil _ _
  | gife c t f => exact List.cons_ne_nil _ _
  | gfor pl pr c ql qr b => exact List.cons_ne_nil _ _
  | gblock n is => exact List.cons_ne_nil _ _

theorem Pr.ne_nil {a : Str} {A : List Tok} {f : Bool} (h : Pr f a A) (hA : A ≠ []) : a ≠ [] := by
  rintro rfl
  obtain ⟨_, raw, h2, h3⟩ := h
  cases h2
  have := (h3 [] [] (fun _ => by intro c hc; simp at hc) .nil).toLex
  rw [List.append_nil] at this
  have e : lex [] = some [] := Lx.toLex .nil
  rw [e, List.append_nil] at this
  exact hA (Option.some.inj this).symm

/-- The items of a generate construct. -/
theorem at_pr (i : MItem) : ∀ br, i.At br → Pr (!i.endsBlock) i.code i.toks := by
  induction i using MItem.ind with
  | gen is => intro br h; exact h.elim
  | gif c t ih => intro br h; exact gif_pr h.1 (ih _ h.2) (endsBlock_last t)
  | gife c t f iht ihf =>
    intro br h
    have hf := ihf _ h.2.2.1
    exact gife_pr h.1 (iht _ h.2.1) (endsBlock_last t) hf (hf.ne_nil (at_toks h.2.2.1))
  | gfor pl pr c ql qr b ih => intro br h; exact gfor_pr h.1 (ih _ h.2)
  | gblock n is ih =>
    intro br h
    have h3 := (ats_iff is).mp h.2.2
    refine gblock_pr h.2.1 (fun i hi => ?_)
    have := ih i hi _ (h3 i hi)
    cases hb : i.endsBlock with
    | true => rw [hb] at this; exact this
    | false => rw [hb] at this; exact this.weak
  | decl ds => intro br h; exact std_pr h.1
  | assign l r => intro br h; exact std_pr h.1
  | always k ss s => intro br h; exact std_pr h.1
  | initial s => intro br h; exact std_pr h.1
  | insts m ps is => intro br h; exact std_pr h.1
  | func n r ds s => intro br h; exact std_pr h.1
  | task n ds s => intro br h; exact std_pr h.1

theorem newLine_dhead {i : MItem} (h : i.newLine = true) (b : Str) : DHead (i.code ++ b) := by
  cases i with
  | always k ss s =>
    cases k with
    | always => exact nl_dhead _
    | ff => cases h
    | comb => cases h
    | latch => cases h
  | initial s => exact nl_dhead _
  | insts m ps is => exact nl_dhead _
  | func n r ds s => exact nl_dhead _
  | task n ds s => exact nl_dhead _
  | _ => cases h

theorem gens_pr {f : Bool} {is : List MItem} (h : ∀ i ∈ is, i.At false) (hs : Spaced is) {b : Str} {B : List Tok} (hb : Pr f b B) (hd : DHead b) :
    Pr f ((MItem.codes is).flatten ++ b) (MItem.toksL is ++ B) := by
  induction is with
  | nil => exact hb
  | cons i is ih =>
    have e : (MItem.codes (i :: is)).flatten = i.code ++ (MItem.codes is).flatten := rfl
    have e2 : MItem.toksL (i :: is) = i.toks ++ MItem.toksL is := rfl
    rw [e, e2, List.append_assoc, List.append_assoc]
    have hi := at_pr i _ (h i (by simp))
    have hs2 : Spaced is := by
      cases is with
      | nil => trivial
      | cons j r => exact hs.2
    have hr := ih (fun j hj => h j (by simp [hj])) hs2
    cases hb : i.endsBlock with
    | false => rw [hb] at hi; exact .app hi hr
    | true =>
      rw [hb] at hi
      refine .appD hi hr ?_
      cases is with
      | nil => exact hd
      | cons j r =>
        have e3 : (MItem.codes (j :: r)).flatten = j.code ++ (MItem.codes r).flatten := rfl
        rw [e3, List.append_assoc]
        exact newLine_dhead (hs.1 hb) _

theorem gen_pr {f : Bool} {is : List MItem} (h : ∀ i ∈ is, i.At false) (hs : Spaced is) :
    Pr f (MItem.gen is).code (MItem.gen is).toks := by
  rw [code_gen, text_generate, text_endgenerate,
    show (MItem.gen is).toks = [.kw "generate".toList] ++ (MItem.toksL is ++ [.kw "endgenerate".toList]) from rfl]
  have m1 := mem_generate
  have m2 := mem_endgenerate
  generalize "generate".toList = w1 at *
  generalize "endgenerate".toList = w2 at *
  have := Pr.app (nlkws_pr (f := true) m1) (gens_pr h hs (nlkw_pr (f := f) m2) (nl_dhead _))
  simpa only [List.append_assoc] using this

theorem mitem_pr {f : Bool} {i : MItem} (h : i.OK) : Pr f i.code i.toks := by
  cases i with
  | gen is => exact gen_pr ((ats_iff is).mp h.2) h.1
  | decl ds => exact std_pr h
  | assign l r => exact std_pr h
  | always k ss s => exact std_pr h
  | initial s => exact std_pr h
  | insts md ps is => exact std_pr h
  | func n ret ds s => exact std_pr h
  | task n ds s => exact std_pr h
  | gif c t => exact h.elim
  | gife c t f => exact h.elim
  | gfor pl pr c ql qr b => exact h.elim
  | gblock n is => exact h.elim

/-- The tokens of a port. -/
def PortD.toks : PortD → List Tok
  | .port n => [.id n]
  | .io f s => [.kw f.kind.word] ++ ((match s with | none => [] | some v => [.kw v.kind.word]) ++
      (signedToks f.signed ++ (widthToks f.width ++ ([.id f.name] ++ dimsToks f.dims))))
  | .none_ => []

theorem port_pr {p : PortD} (h : (∃ n, p = .port n ∧ NameOK n) ∨ (∃ f s, p = .io f s ∧ IoOK f s)) : Pr false p.code p.toks := by
  rcases h with ⟨n, rfl, h⟩ | ⟨f, s, rfl, h⟩
  · exact .name h
  · obtain ⟨h1, _, h3, _⟩ := h
    have ht : Pr false (signedCode f.signed ++ (widthCode f.width ++ (escape f.name ++ dimsCode f.dims)))
        (signedToks f.signed ++ (widthToks f.width ++ ([.id f.name] ++ dimsToks f.dims))) :=
      .app (signed_pr _) (.app (width_pr h1.2.1) (name_dims_pr h1.1 h1.2.2))
    cases s with
    | none =>
      have := Pr.app (Pr.kws (w := f.kind.word) (word_reserved _)) ht
      simpa only [PortD.code, PortD.toks, List.append_assoc, Bool.or_false, List.nil_append, List.append_nil] using this
    | some v =>
      have hv := h3 v rfl
      have hs : v.signed = f.signed := by rw [hv]
      have := Pr.app (Pr.kws (w := f.kind.word) (word_reserved _)) (.app (Pr.kws (w := v.kind.word) (word_reserved _)) ht)
      simpa only [PortD.code, PortD.toks, List.append_assoc, hs, Bool.or_self] using this

theorem commaNl_pr (xs : List (Str × List Tok)) (h : ∀ x ∈ xs, Pr false x.1 x.2) :
    Pr false (commaNl (xs.map Prod.fst)) (commaT (xs.map Prod.snd)) := by
  induction xs with
  | nil => exact .nil
  | cons x xs ih =>
    cases xs with
    | nil => exact h x (by simp)
    | cons y ys =>
      have hc : Pr true ",\n".toList [.p .comma] := Pr.app (.ch .comma ',' rfl rfl rfl) nl_pr
      have := Pr.appD (h x (by simp)) (.app hc (ih (fun z hz => h z (by simp at hz ⊢; tauto)))) (DHead.cons _ (by decide))
      simpa [commaNl, commaT] using this

theorem delSpace_mem {s : Str} {c : Char} (h : c ∈ delSpace s) : c ∈ s := List.mem_of_mem_filter h

theorem pcode_noSemi {p : Param} (h : p.NoSemi) (loc : Bool) : ';' ∉ p.pcode loc := by
  obtain ⟨h1, h2, h3⟩ := h
  have hw : ';' ∉ widthCode p.width := by
    cases hw : p.width with
    | none => simp [widthCode]
    | some r =>
      have := h3 r hw
      simp only [widthCode, rngCode, List.mem_append, List.mem_cons, not_or]
      refine ⟨⟨⟨⟨⟨by decide, fun h => Leaves.noSemi this.1 (delSpace_mem h)⟩, by simp⟩, fun h => Leaves.noSemi this.2 (delSpace_mem h)⟩, by simp⟩, by simp⟩
  have hn : ';' ∉ escape p.name := by
    unfold escape
    split
    · simp [h1]
    · exact h1
  have hs : ';' ∉ signedCode p.signed := by unfold signedCode; split <;> decide
  have hk : ';' ∉ (if loc then "localparam ".toList else "parameter ".toList) := by split <;> decide
  simp only [Param.pcode, List.mem_append, not_or]
  exact ⟨hk, hs, hw, hn, by decide, Leaves.noSemi h2⟩

theorem filter_semi {s : Str} (h : ';' ∉ s) : (s ++ [';']).filter (fun c => c != ';') = s := by
  rw [List.filter_append, List.filter_eq_self.mpr]
  · simp
  · intro c hc
    simp only [bne_iff_ne, ne_eq]
    rintro rfl
    exact h hc

/-- The tokens of the parameters in the header. -/
def paramlistToks (ps : List (List Param)) : List Tok := commaT (ps.map (fun d => d.flatMap (Param.ptoks false)))

theorem paramlist_pr (ps : List (List Param)) (h : ∀ d ∈ ps, ∃ p, d = [p] ∧ p.OK ∧ p.NoSemi) :
    Pr false (paramlistCode ps) (paramlistToks ps) := by
  have := commaNl_pr (ps.map (fun d => ((d.flatMap (Param.code false)).filter (fun c => c != ';'), d.flatMap (Param.ptoks false)))) (by
    intro x hx
    obtain ⟨d, hd, rfl⟩ := List.mem_map.mp hx
    obtain ⟨p, rfl, h1, h2⟩ := h d hd
    simp only [List.flatMap_cons, List.flatMap_nil, List.append_nil, param_code h1, filter_semi (pcode_noSemi h2 false)]
    exact pcode_pr h1 false)
  simpa [paramlistCode, paramlistToks, Function.comp_def] using this

theorem indent_nil {s : Str} (h : NoBreak s) : indentN 2 s = [] ↔ s = [] := by
  constructor
  · intro e
    obtain ⟨n, t, e2, hr⟩ := indentN_re 2 s h
    rw [e] at e2
    have := List.append_eq_nil_iff.mp e2.symm
    rw [this.2] at hr
    cases hr; rfl
  · rintro rfl; rfl

/-- The tokens of a module. -/
def ModuleDef.toks (m : ModuleDef) : List Tok :=
  [.kw "module".toList] ++ ([.id m.name] ++ ((if m.params = [] then [] else [.p .delay] ++ ([.p .lparen] ++ (paramlistToks m.params ++ [.p .rparen]))) ++
    ([.p .lparen] ++ (commaT (m.ports.map PortD.toks) ++ ([.p .rparen] ++ ([.p .semicolon] ++ (m.items.flatMap MItem.toks ++ [.kw "endmodule".toList])))))))

theorem items_lines (is : List MItem) :
    '\n' :: is.flatMap (fun i => indentN 2 i.code ++ ['\n']) = is.flatMap (fun i => '\n' :: indentN 2 i.code) ++ ['\n'] := by
  induction is with
  | nil => rfl
  | cons i is ih =>
    simp only [List.flatMap_cons, List.append_assoc, List.cons_append, List.nil_append]
    rw [ih]

theorem mitems_pr {f : Bool} (is : List MItem) (h : ∀ i ∈ is, i.OK) :
    Pr f (is.flatMap (fun i => '\n' :: indentN 2 i.code)) (is.flatMap MItem.toks) := by
  induction is with
  | nil => exact .nil
  | cons i is ih =>
    simp only [List.flatMap_cons]
    exact .app (mitem_pr (h i (by simp))).line (ih (fun i hi => h i (by simp [hi])))

/-- What the printer needs: the ports may be names and declared ports, mixed. -/
def ModuleDef.Texts (m : ModuleDef) : Prop :=
  NameOK m.name ∧ (∀ d ∈ m.params, ∃ p, d = [p] ∧ p.OK ∧ p.NoSemi) ∧
    (∀ p ∈ m.ports, (∃ n, p = .port n ∧ NameOK n) ∨ (∃ f s, p = .io f s ∧ IoOK f s)) ∧ ∀ i ∈ m.items, i.OK

theorem ModuleDef.OK.texts {m : ModuleDef} (h : m.OK) : m.Texts := by
  obtain ⟨hn, hps, hports, his⟩ := h
  refine ⟨hn, hps, fun p hp => ?_, his⟩
  rcases hports with h | h
  · exact .inl (h p hp)
  · exact .inr (h p hp)

theorem module_pr {f : Bool} {m : ModuleDef} (h : m.Texts) : Pr f m.code m.toks := by
  obtain ⟨hn, hps, hports, his⟩ := h
  have hpp := paramlist_pr m.params hps
  have hports2 : Pr false (commaNl (m.ports.map PortD.code)) (commaT (m.ports.map PortD.toks)) := by
    have := commaNl_pr (m.ports.map (fun p => (p.code, p.toks))) (by
      intro x hx
      obtain ⟨p, hp, rfl⟩ := List.mem_map.mp hx
      exact port_pr (hports p hp))
    simpa [Function.comp_def] using this
  have hend : Pr f "\n\nendmodule\n".toList [.kw "endmodule".toList] :=
    Pr.app (.ws ['\n', '\n'] (by simp)) (.appD (Pr.kw (w := "endmodule".toList) (by decide)) nl_pr (nl_dhead _))
  have hitems := Pr.app (mitems_pr (f := true) m.items his) hend
  have hclose : Pr true "\n);\n".toList ([.p .rparen] ++ [.p .semicolon]) :=
    Pr.app nl_pr (.app (.ch .rparen ')' rfl rfl rfl) (.app semi_pr nl_pr))
  have hbody := Pr.app (opening_pr (f := true)) (.appD hports2.line (.app hclose hitems) (nl_dhead _))
  have hlist : Pr true (if indentN 2 (paramlistCode m.params) = [] then [] else " #\n(\n".toList ++ indentN 2 (paramlistCode m.params) ++ "\n)".toList)
      (if m.params = [] then [] else [.p .delay] ++ ([.p .lparen] ++ (paramlistToks m.params ++ [.p .rparen]))) := by
    by_cases he : m.params = []
    · rw [he]; exact .nil
    · have hne : paramlistCode m.params ≠ [] := by
        cases hq : m.params with
        | nil => exact absurd hq he
        | cons d ds =>
          obtain ⟨p, rfl, h1, h2⟩ := hps d (by rw [hq]; simp)
          have : ∀ x : Str, ∃ y, ((Param.code false p).filter (fun c => c != ';')) ++ x = 'p' :: y := by
            intro x
            rw [param_code h1, filter_semi (pcode_noSemi h2 false)]
            exact ⟨_, rfl⟩
          cases ds with
          | nil =>
            obtain ⟨y, hy⟩ := this []
            simp only [paramlistCode, List.map_cons, List.map_nil, commaNl, List.flatMap_cons, List.flatMap_nil, List.append_nil] at hy ⊢
            rw [hy]; simp
          | cons d2 ds =>
            simp only [paramlistCode, List.map_cons, commaNl, List.flatMap_cons, List.flatMap_nil, List.append_nil, List.append_assoc]
            obtain ⟨y, hy⟩ := this (",\n".toList ++ commaNl ((d2.flatMap (Param.code false)).filter (fun c => c != ';') :: ds.map (fun d => (d.flatMap (Param.code false)).filter (fun c => c != ';'))))
            rw [hy]; simp
      rw [if_neg (fun e => hne ((indent_nil hpp.1).mp e)), if_neg he]
      have hsh : Pr true " #\n(".toList ([.p .delay] ++ [.p .lparen]) :=
        Pr.app (.ws [' '] (by simp)) (.app (.ch .delay '#' rfl rfl rfl) (.app nl_pr (.ch .lparen '(' rfl rfl rfl)))
      have := Pr.app hsh (.appD hpp.line (closing_pr (f := true)) (nl_dhead _))
      simpa only [List.append_assoc, show " #\n(\n".toList = " #\n(".toList ++ ['\n'] from rfl, List.cons_append, List.nil_append] using this
  have hd : DHead ((if indentN 2 (paramlistCode m.params) = [] then [] else " #\n(\n".toList ++ indentN 2 (paramlistCode m.params) ++ "\n)".toList) ++
      ("\n(".toList ++ ('\n' :: indentN 2 (commaNl (m.ports.map PortD.code)) ++ ("\n);\n".toList ++ (m.items.flatMap (fun i => '\n' :: indentN 2 i.code) ++ "\n\nendmodule\n".toList))))) := by
    split
    · exact nl_dhead _
    · exact DHead.cons _ (by decide)
  have hmod : Pr true "\nmodule ".toList [.kw "module".toList] := Pr.app nl_pr (Pr.kws (w := "module".toList) (by decide))
  have hall := Pr.app hmod (.appD (.name hn) (.app hlist hbody) hd)
  have e : m.code = "\nmodule ".toList ++ (escape m.name ++ ((if indentN 2 (paramlistCode m.params) = [] then [] else " #\n(\n".toList ++ indentN 2 (paramlistCode m.params) ++ "\n)".toList) ++
      ("\n(".toList ++ ('\n' :: indentN 2 (commaNl (m.ports.map PortD.code)) ++ ("\n);\n".toList ++ (m.items.flatMap (fun i => '\n' :: indentN 2 i.code) ++ "\n\nendmodule\n".toList)))))) := by
    have e1 : "\n(\n".toList = "\n(".toList ++ ['\n'] := rfl
    have e2 : "\n);\n\n".toList = "\n);\n".toList ++ ['\n'] := rfl
    have e3 : "\n\nendmodule\n".toList = ['\n'] ++ "\nendmodule\n".toList := rfl
    have e4 := items_lines m.items
    unfold ModuleDef.code
    rw [e1, e2, e3]
    simp only [List.append_assoc, List.cons_append, List.nil_append]
    have e5 : m.items.flatMap (fun i => '\n' :: indentN 2 i.code) ++ '\n' :: "\nendmodule\n".toList =
        '\n' :: (m.items.flatMap (fun i => indentN 2 i.code ++ ['\n']) ++ "\nendmodule\n".toList) := by
      rw [← List.cons_append, e4, List.append_assoc]; rfl
    rw [e5]
  rw [e]
  simpa only [ModuleDef.toks, List.append_assoc] using hall

/-- The tokens of a printed source text. -/
theorem source_lex (ms : List ModuleDef) (h : ∀ m ∈ ms, m.Texts) : lex (sourceCode ms) = some (ms.flatMap ModuleDef.toks) := by
  refine Pr.toLex (Pr.weak ?_)
  unfold sourceCode
  induction ms with
  | nil => exact .nil
  | cons m ms ih =>
    simp only [List.flatMap_cons]
    have := Pr.app (Pr.app nl_pr (Pr.app (module_pr (f := true) (h m (by simp))) nl_pr)) (ih (fun m hm => h m (by simp [hm])))
    simpa only [List.append_assoc, List.nil_append, List.append_nil, List.cons_append] using this

end Pyv
