import Verif.LexPos
import Verif.LexSpec
import Verif.Props.LexProps
/-
  C79: the tokens of a text, their lines and positions; directives; lexical errors.
-/
namespace Pyv

/-! ## Specification -/

/-- A piece of text that is passed over: a blank, a newline, a comment or a compiler directive. -/
inductive Gap : Str → Prop
  | blank : Gap [' ']
  | tab : Gap ['\t']
  | newline : Gap ['\n']
  | line (s : Str) : '\n' ∉ s → Gap ('/' :: '/' :: s ++ ['\n'])
  | block (s : Str) : ¬ ['*', '/'] <:+: s ++ ['*'] → Gap ('/' :: '*' :: s ++ ['*', '/'])
  | directive (s : Str) : '\n' ∉ s → Gap ('`' :: s ++ ['\n'])

/-- The text of a token is spelt as Verilog requires. -/
def Tok.Spelt : Tok → Prop
  | .p _ => True
  | .id s => IsName s
  | .kw s => s ∈ reservedWords
  | .int s => IntLit s
  | .flt s => FloatLit s
  | .str s => ∃ b, StrBody b ∧ s = '"' :: b ++ ['"']

/-- A text is cut into tokens and pieces that are passed over. -/
inductive Piece where
  | gap (s : Str)
  | tok (t : Tok)

/-- The text of a piece. -/
def Piece.text : Piece → Str
  | .gap s => s
  | .tok t => t.text

/-- A well-formed piece. -/
def Piece.OK : Piece → Prop
  | .gap s => Gap s
  | .tok t => t.Spelt

/-- The tokens among the pieces, with their lines and positions: `before` is the text in front of the pieces, the first
line of which has the number `first`. -/
def tokensAt (first : Nat) : Str → List Piece → List LTok
  | _, [] => []
  | before, .gap s :: ps => tokensAt first (before ++ s) ps
  | before, .tok t :: ps => ⟨t, first + before.count '\n', before.length⟩ :: tokensAt first (before ++ t.text) ps

/-- The compiler directives among the pieces, with their lines. -/
def directivesAt (first : Nat) : Str → List Piece → List (Nat × Str)
  | _, [] => []
  | before, .gap s :: ps =>
    (if s.head? = some '`' then [(first + before.count '\n', s)] else []) ++ directivesAt first (before ++ s) ps
  | before, .tok t :: ps => directivesAt first (before ++ t.text) ps

/-! ## Scanners cut the text -/

theorem scanLine_cut : ∀ (cs r : Str), scanLine cs = some r → ∃ s, '\n' ∉ s ∧ cs = s ++ '\n' :: r
  | [], _, h => by simp [scanLine] at h
  | c :: cs, r, h => by
    unfold scanLine at h
    split at h
    · next e => simp at h; subst h; subst e; exact ⟨[], by simp, rfl⟩
    · next e =>
      obtain ⟨s, h1, rfl⟩ := scanLine_cut cs r h
      exact ⟨c :: s, by simp [h1, Ne.symm e], rfl⟩

theorem infix_cons_iff {a b c : Char} {t : Str} : ([a, b] <:+: c :: t) ↔ (c = a ∧ t.head? = some b) ∨ [a, b] <:+: t := by
  rw [List.infix_cons_iff]
  constructor
  · rintro (h | h)
    · left
      cases t with
      | nil => simp [List.cons_prefix_cons] at h
      | cons d t => simp [List.cons_prefix_cons] at h; simp [h]
    · exact .inr h
  · rintro (⟨rfl, h⟩ | h)
    · left
      cases t with
      | nil => simp at h
      | cons d t => simp at h; subst h; simp [List.cons_prefix_cons]
    · exact .inr h

theorem scanComment_cut : ∀ (cs r : Str), scanComment cs = some r →
    ∃ s, ¬ ['*', '/'] <:+: s ++ ['*'] ∧ cs = s ++ '*' :: '/' :: r := by
  intro cs
  induction cs using scanComment.induct with
  | case1 r => intro r' h; simp [scanComment] at h; subst h; exact ⟨[], by rw [List.nil_append, infix_cons_iff]; simp, rfl⟩
  | case2 c t hne ih =>
    intro r h
    rw [scanComment] at h
    · obtain ⟨s, h1, rfl⟩ := ih r h
      refine ⟨c :: s, ?_, rfl⟩
      rw [List.cons_append, infix_cons_iff]
      rintro (⟨rfl, h2⟩ | h2)
      · cases s with
        | nil => simp at h2
        | cons d s =>
          simp at h2; subst h2
          exact hne _ rfl rfl
      · exact h1 h2
    · intro r' h1 h2; exact hne r' h1 h2
  | case3 => intro r h; simp [scanComment] at h

theorem scanStr_cut : ∀ (cs s r : Str), scanStr cs = some (s, r) → StrBody s ∧ cs = s ++ '"' :: r := by
  intro cs
  induction cs using scanStr.induct with
  | case1 => intro s r h; simp [scanStr] at h
  | case2 r => intro s r' h; simp [scanStr] at h; obtain ⟨rfl, rfl⟩ := h; exact ⟨.nil, rfl⟩
  | case3 t => intro s r h; simp [scanStr] at h
  | case4 c t hc ih =>
    intro s r h
    simp only [scanStr, hc, if_true, Option.map_eq_some_iff, Prod.mk.injEq] at h
    obtain ⟨⟨s', r'⟩, h1, rfl, rfl⟩ := h
    obtain ⟨h2, rfl⟩ := ih s' r' h1
    exact ⟨.esc c s' hc h2, rfl⟩
  | case5 c t hc => intro s r h; simp [scanStr, hc] at h
  | case6 => intro s r h; simp [scanStr] at h
  | case7 c t h1 h2 h3 h4 ih =>
    intro s r h
    rw [scanStr] at h
    · simp only [Option.map_eq_some_iff, Prod.mk.injEq] at h
      obtain ⟨⟨s', r'⟩, h5, rfl, rfl⟩ := h
      obtain ⟨h6, rfl⟩ := ih s' r' h5
      refine ⟨.chr c s' h1 ?_ h2 h6, rfl⟩
      rintro rfl
      cases s' with
      | nil => exact h3 _ _ rfl rfl
      | cons d s' => exact h3 _ _ rfl rfl
    all_goals assumption

theorem takeWhile_all {p : Char → Bool} {cs : Str} : ∀ c ∈ cs.takeWhile p, p c = true := by
  induction cs with
  | nil => simp
  | cons d cs ih =>
    intro c hc
    rw [List.takeWhile_cons] at hc
    split at hc
    · next hd =>
      rcases List.mem_cons.mp hc with rfl | hc
      · exact hd
      · exact ih c hc
    · simp at hc

theorem optChar_cut (cl r : Str) : r = optChar cl r ++ r.drop (optChar cl r).length ∧
    (optChar cl r = [] ∨ ∃ c ∈ cl, optChar cl r = [c]) := by
  cases r with
  | nil => simp [optChar]
  | cons c r =>
    simp only [optChar]
    split
    · next h => exact ⟨rfl, .inr ⟨c, h, rfl⟩⟩
    · exact ⟨rfl, .inl rfl⟩

theorem scanExp_cut (cs s r : Str) (h : scanExp cs = some (s, r)) : ExpPart s ∧ cs = s ++ r := by
  cases cs with
  | nil => simp [scanExp] at h
  | cons e t =>
    simp only [scanExp] at h
    split at h
    · next he =>
      split at h
      · simp at h
      · next hd =>
        simp only [Option.some.injEq, Prod.mk.injEq] at h
        obtain ⟨rfl, rfl⟩ := h
        obtain ⟨h1, h2⟩ := optChar_cut ['-', '+'] t
        refine ⟨⟨e, _, _, rfl, he, ?_, hd, takeWhile_all⟩, ?_⟩
        · rcases h2 with h2 | ⟨c, hc, h2⟩
          · exact .inl h2
          · simp at hc; rcases hc with rfl | rfl <;> simp [h2]
        · simp only [List.cons_append, List.append_assoc, List.takeWhile_append_dropWhile]
          rw [← h1]
    · simp at h

theorem scanFloat_cut (cs s r : Str) (h : scanFloat cs = some (s, r)) : FloatLit s ∧ cs = s ++ r := by
  have hc := List.takeWhile_append_dropWhile (p := isDig) (l := cs)
  unfold scanFloat at h
  simp only at h
  split at h
  · next r0 he =>
    rw [he] at hc
    have hc0 := List.takeWhile_append_dropWhile (p := isDig) (l := r0)
    split at h
    · simp at h
    · next hne =>
      split at h
      · next x r' hx =>
        obtain ⟨h1, h2⟩ := scanExp_cut _ _ _ hx
        simp only [Option.some.injEq, Prod.mk.injEq] at h
        obtain ⟨rfl, rfl⟩ := h
        refine ⟨?_, ?_⟩
        · have := FloatLit.frac _ _ x (takeWhile_all (p := isDig) (cs := cs)) (takeWhile_all (p := isDig) (cs := r0)) hne (.inr h1)
          simpa using this
        · conv_lhs => rw [← hc, ← hc0, h2]
          simp
      · simp only [Option.some.injEq, Prod.mk.injEq] at h
        obtain ⟨rfl, rfl⟩ := h
        refine ⟨?_, ?_⟩
        · have := FloatLit.frac _ _ [] (takeWhile_all (p := isDig) (cs := cs)) (takeWhile_all (p := isDig) (cs := r0)) hne (.inl rfl)
          simpa using this
        · conv_lhs => rw [← hc, ← hc0]
          simp
  · split at h
    · simp at h
    · next hd =>
      simp only [Option.map_eq_some_iff, Prod.mk.injEq] at h
      obtain ⟨⟨x, r'⟩, hx, rfl, rfl⟩ := h
      obtain ⟨h1, h2⟩ := scanExp_cut _ _ _ hx
      refine ⟨.expo _ _ takeWhile_all hd h1, ?_⟩
      conv_lhs => rw [← hc, h2]
      simp

instance (b c : Char) : Decidable (baseDigit b c) := by unfold baseDigit; infer_instance

theorem intRules_digits : ∀ ru ∈ intRules, ∀ b ∈ ru.2.1, (∀ f ∈ ru.2.2.1, baseDigit b f) ∧ (∀ f ∈ ru.2.2.2, baseDigit b f ∨ f = '_') ∧
    (ru.1 = true → b ∈ ['b', 'B'] → 'X' ∉ ru.2.2.1) := by
  have h : (intRules.all fun ru => ru.2.1.all fun b => (ru.2.2.1.all fun f => decide (baseDigit b f)) &&
      (ru.2.2.2.all fun f => decide (baseDigit b f ∨ f = '_')) && decide (ru.1 = true → b ∈ ['b', 'B'] → 'X' ∉ ru.2.2.1)) = true := by
    decide +kernel
  simpa only [List.all_eq_true, Bool.and_eq_true, decide_eq_true_eq, and_assoc] using h

theorem scanBase_cut (ru) (hru : ru ∈ intRules) (cs s r : Str) (h : scanBase ru cs = some (s, r)) :
    (∀ size : Str, (∀ c ∈ size, isDig c = true) → IntLit (size ++ '\'' :: s)) ∧ cs = s ++ r := by
  unfold scanBase at h
  simp only at h
  obtain ⟨h1, h2⟩ := optChar_cut (if ru.1 = true then ['s', 'S'] else []) cs
  generalize optChar (if ru.1 = true then ['s', 'S'] else []) cs = sg at h h1 h2
  split at h
  · simp at h
  · next hsg =>
    split at h
    · next b f r' hd =>
      split at h
      · next hbf =>
        simp only [Option.some.injEq, Prod.mk.injEq] at h
        obtain ⟨rfl, rfl⟩ := h
        rw [hd] at h1
        have hcut := List.takeWhile_append_dropWhile (p := fun c => decide (c ∈ ru.2.2.2)) (l := r')
        refine ⟨?_, ?_⟩
        · intro size hsize
          refine .based size sg b f _ hsize ?_ ?_ ?_ ?_
          · rcases h2 with h2 | ⟨c, hc, h2⟩
            · exact .inl h2
            · split at hc
              · simp at hc; rcases hc with rfl | rfl <;> simp [h2]
              · simp at hc
          · exact (intRules_digits ru hru b hbf.1).1 f hbf.2
          · intro c hc
            have hc := takeWhile_all c hc
            simp only [decide_eq_true_eq] at hc
            exact (intRules_digits ru hru b hbf.1).2.1 c hc
          · rintro ⟨h3, h4, rfl⟩
            have hs : ru.1 = true := by
              rcases h2 with h2 | ⟨c, hc, h2⟩
              · exact absurd h2 h3
              · split at hc
                · assumption
                · simp at hc
            exact (intRules_digits ru hru b hbf.1).2.2 hs h4 hbf.2
        · rw [List.append_assoc, List.cons_append, List.cons_append, hcut]; exact h1
      · simp at h
    · simp at h

theorem scanInt_cut (cs s r : Str) (h : scanInt cs = some (s, r)) : IntLit s ∧ cs = s ++ r := by
  have hc := List.takeWhile_append_dropWhile (p := isDig) (l := cs)
  unfold scanInt at h
  split at h
  · next x hb =>
    simp only [Option.some.injEq] at h; subst h
    unfold scanBased at hb
    split at hb
    · next r0 he =>
      rw [he] at hc
      simp only [Option.map_eq_some_iff, Prod.mk.injEq] at hb
      obtain ⟨⟨x, r'⟩, hx, rfl, rfl⟩ := hb
      obtain ⟨ru, hru, hx⟩ := List.exists_of_findSome?_eq_some hx
      obtain ⟨h1, rfl⟩ := scanBase_cut ru hru _ _ _ hx
      refine ⟨h1 _ takeWhile_all, ?_⟩
      conv_lhs => rw [← hc]
      simp
    · simp at hb
  · split at h
    · next c t _ =>
      split at h
      · next hd =>
        simp only [Option.some.injEq, Prod.mk.injEq] at h
        obtain ⟨rfl, rfl⟩ := h
        refine ⟨.dec c _ hd ?_, ?_⟩
        · intro x hx
          have := takeWhile_all x hx
          simpa using this
        · rw [List.cons_append, List.takeWhile_append_dropWhile]
      · simp at h
    · simp at h

theorem scanId_cut (cs s r : Str) (h : scanId cs = some (s, r)) :
    ((∃ c t, s = c :: t ∧ isIdStart c = true ∧ ∀ x ∈ t, isIdChar x = true) ∨ EscId s) ∧ cs = s ++ r := by
  cases cs with
  | nil => simp [scanId] at h
  | cons c t =>
    simp only [scanId] at h
    split at h
    · next hc =>
      simp only [Option.some.injEq, Prod.mk.injEq] at h
      obtain ⟨rfl, rfl⟩ := h
      exact ⟨.inl ⟨c, _, rfl, hc, takeWhile_all⟩, by rw [List.cons_append, List.takeWhile_append_dropWhile]⟩
    · split at h
      · next hc =>
        simp only [Option.some.injEq, Prod.mk.injEq] at h
        obtain ⟨rfl, rfl⟩ := h
        obtain ⟨rfl, hne⟩ := hc
        refine ⟨.inr ⟨_, rfl, hne, ?_⟩, by rw [List.cons_append, List.takeWhile_append_dropWhile]⟩
        intro x hx
        have := takeWhile_all x hx
        simpa using this
      · simp at h

theorem scanPun_cut (cs : Str) (k : Pun) (r : Str) (h : scanPun cs = some (k, r)) : cs = k.text ++ r := by
  obtain ⟨k', _, hk⟩ := List.exists_of_findSome?_eq_some h
  split at hk
  · next hp =>
    simp only [Option.some.injEq, Prod.mk.injEq] at hk
    obtain ⟨rfl, rfl⟩ := hk
    rw [List.isPrefixOf_iff_prefix] at hp
    obtain ⟨t, rfl⟩ := hp
    simp
  · simp at hk

theorem scanSkip_cut (cs r : Str) (h : scanSkip cs = some r) : ∃ s, Gap s ∧ cs = s ++ r := by
  unfold scanSkip at h
  split at h
  · obtain ⟨s, h1, rfl⟩ := scanLine_cut _ _ h; exact ⟨_, .directive s h1, by simp⟩
  · obtain ⟨s, h1, rfl⟩ := scanLine_cut _ _ h; exact ⟨_, .line s h1, by simp⟩
  · obtain ⟨s, h1, rfl⟩ := scanComment_cut _ _ h; exact ⟨_, .block s h1, by simp⟩
  · simp at h

/-- What a step of the lexer cuts off. -/
def StepCuts (cs r : Str) : Option Tok → Prop
  | none => ∃ s, Gap s ∧ cs = s ++ r
  | some t => t.Spelt ∧ cs = t.text ++ r

/-- Every step of the lexer cuts off a well-formed piece. -/
theorem lexTok_cut (cs : Str) (o : Option Tok) (r : Str) (h : lexTok cs = some (o, r)) : StepCuts cs r o := by
  unfold lexTok at h
  split at h
  · next hs => simp at h; obtain ⟨rfl, rfl⟩ := h; exact scanSkip_cut _ _ hs
  split at h
  · next s r' hs =>
    simp at h; obtain ⟨rfl, rfl⟩ := h
    unfold scanQuoted at hs
    split at hs
    · obtain ⟨h1, rfl⟩ := scanStr_cut _ _ _ hs
      exact ⟨⟨_, h1, rfl⟩, by simp [Tok.text]⟩
    · simp at hs
  split at h
  · next hs => simp at h; obtain ⟨rfl, rfl⟩ := h; exact scanFloat_cut _ _ _ hs
  split at h
  · next hs => simp at h; obtain ⟨rfl, rfl⟩ := h; exact scanInt_cut _ _ _ hs
  split at h
  · next s r' hs =>
    simp only [Option.some.injEq, Prod.mk.injEq] at h
    obtain ⟨rfl, rfl⟩ := h
    obtain ⟨h1, h2⟩ := scanId_cut _ _ _ hs
    by_cases hr : s ∈ reservedWords
    · rw [if_pos hr]; exact ⟨hr, h2⟩
    · rw [if_neg hr]
      refine ⟨?_, h2⟩
      show IsName s
      rcases h1 with h1 | h1
      · exact .inl ⟨h1, hr⟩
      · exact .inr h1
  split at h
  · simp at h; obtain ⟨rfl, rfl⟩ := h; exact ⟨_, .newline, rfl⟩
  split at h
  · next hs => simp at h; obtain ⟨rfl, rfl⟩ := h; exact ⟨trivial, scanPun_cut _ _ _ hs⟩
  · simp at h

/-- No token contains a newline. -/
theorem Tok.Spelt.noNewline {t : Tok} (h : t.Spelt) : '\n' ∉ t.text := by
  have hd : isDig '\n' = false := by decide
  have hdig : ∀ {ds : Str}, (∀ c ∈ ds, isDig c = true) → '\n' ∉ ds := by
    intro ds h hc; rw [h _ hc] at hd; cases hd
  have hx : ∀ {x : Str}, ExpPart x → '\n' ∉ x := by
    rintro x ⟨e, sg, ds, rfl, he, hs, _, hds⟩ hm
    rw [List.mem_cons, List.mem_append] at hm
    rcases hm with hm | hm | hm
    · subst hm; exact absurd he (by decide)
    · rcases hs with rfl | rfl | rfl <;> exact absurd hm (by decide)
    · exact hdig hds hm
  have hb : ∀ {b : Char}, ¬ baseDigit b '\n' := by
    intro b h
    rcases h with ⟨_, h⟩ | ⟨_, h⟩ | ⟨_, h⟩ | ⟨_, h⟩ <;> exact absurd h (by decide)
  cases t with
  | p k => cases k <;> decide
  | id s =>
    rcases h with ⟨⟨c, r, rfl, h1, h2⟩, _⟩ | ⟨r, rfl, _, h2⟩
    · intro hm
      rcases List.mem_cons.mp hm with hm | hm
      · subst hm; exact absurd h1 (by decide)
      · exact absurd (h2 _ hm) (by decide)
    · intro hm
      rcases List.mem_cons.mp hm with hm | hm
      · exact absurd hm (by decide)
      · exact absurd (h2 _ hm) (by decide)
  | kw s =>
    have key : ∀ w ∈ reservedWords, '\n' ∉ w := by decide +kernel
    exact key s h
  | int s =>
    simp only [Tok.Spelt] at h
    simp only [Tok.text]
    cases h with
    | dec d ds h1 h2 =>
      intro hm
      rcases List.mem_cons.mp hm with hm | hm
      · subst hm; exact absurd h1 (by decide)
      · exact absurd (h2 _ hm) (by decide)
    | based size sg b f ds h1 h2 h3 h4 _ =>
      intro hm
      rw [List.mem_append, List.mem_cons, List.mem_append, List.mem_cons, List.mem_cons] at hm
      rcases hm with hm | hm | hm | hm | hm | hm
      · exact hdig h1 hm
      · exact absurd hm (by decide)
      · rcases h2 with rfl | rfl | rfl <;> exact absurd hm (by decide)
      · subst hm
        rcases h3 with ⟨h, _⟩ | ⟨h, _⟩ | ⟨h, _⟩ | ⟨h, _⟩ <;> exact absurd h (by decide)
      · subst hm; exact hb h3
      · rcases h4 _ hm with h | h
        · exact hb h
        · exact absurd h (by decide)
  | flt s =>
    simp only [Tok.Spelt] at h
    simp only [Tok.text]
    cases h with
    | frac d f x h1 h2 _ h3 =>
      intro hm
      rw [List.mem_append, List.mem_cons, List.mem_append] at hm
      rcases hm with hm | hm | hm | hm
      · exact hdig h1 hm
      · exact absurd hm (by decide)
      · exact hdig h2 hm
      · rcases h3 with rfl | h3
        · simp at hm
        · exact hx h3 hm
    | expo d x h1 _ h3 =>
      intro hm
      rcases List.mem_append.mp hm with hm | hm
      · exact hdig h1 hm
      · exact hx h3 hm
  | str s =>
    obtain ⟨b, h, rfl⟩ := h
    have hsb : '\n' ∉ b := by
      induction h with
      | nil => simp
      | chr c s _ _ h1 _ ih => simp only [List.mem_cons, not_or]; exact ⟨Ne.symm h1, ih⟩
      | esc c s h1 _ ih =>
        simp only [List.mem_cons, not_or]
        refine ⟨by decide, ?_, ih⟩
        rintro rfl; exact absurd h1 (by decide)
    simp only [Tok.text, List.mem_cons, List.mem_append, List.cons_append, not_or]
    exact ⟨by decide, hsb, by decide⟩

/-! ## Runs of the lexer -/

/-- The text of pieces. -/
def piecesText (ps : List Piece) : Str := (ps.map Piece.text).flatten

/-- The default net type after directives. -/
def nettypeAfter (old : Str) (ds : List (Nat × Str)) : Str := ((ds.filterMap (fun d => nettypeOf d.2)).getLast?).getD old

theorem nettypeAfter_cons (old : Str) (d : Nat × Str) (ds : List (Nat × Str)) :
    nettypeAfter old (d :: ds) = nettypeAfter ((nettypeOf d.2).getD old) ds := by
  unfold nettypeAfter
  cases h : nettypeOf d.2 with
  | none => simp [h]
  | some x =>
    simp only [List.filterMap_cons, h, Option.getD_some]
    cases hl : (ds.filterMap fun d => nettypeOf d.2) with
    | nil => simp
    | cons y ys => simp [List.getLast?_cons]

theorem skip_head {st : LexSt} {s : Str} (h : s.head? = some '`') :
    st.skip s = { line := st.line + s.count '\n', directives := st.directives ++ [(st.line, s)], nettype := (nettypeOf s).getD st.nettype } := by
  cases s with
  | nil => simp at h
  | cons c s => simp at h; subst h; rfl

theorem skip_other {st : LexSt} {s : Str} (h : s.head? ≠ some '`') : st.skip s = { st with line := st.line + s.count '\n' } := by
  cases s with
  | nil => rfl
  | cons c s =>
    unfold LexSt.skip
    split
    · next h' => simp at h'; exact absurd (by simp [h'.1]) h
    · rfl

/-- What a run of the lexer that succeeds yields. -/
def RunOK (first : Nat) (before cs : Str) (st : LexSt) (ks : List LTok) (st' : LexSt) : Prop :=
  ∃ ps : List Piece, (∀ p ∈ ps, p.OK) ∧ cs = piecesText ps ∧ ks = tokensAt first before ps ∧
    st'.line = first + (before ++ cs).count '\n' ∧ st'.directives = st.directives ++ directivesAt first before ps ∧
    st'.nettype = nettypeAfter st.nettype (directivesAt first before ps)

/-- Where a run of the lexer fails. -/
def RunFails (first : Nat) (before cs : Str) (e : LexErr) : Prop :=
  ∃ (ps : List Piece) (rest : Str), (∀ p ∈ ps, p.OK) ∧ cs = piecesText ps ++ e.char :: rest ∧
    ¬ (e.char = ' ' ∨ e.char = '\t') ∧ lexTok (e.char :: rest) = none ∧ e.pos = (before ++ piecesText ps).length ∧
    e.line = first + (before ++ piecesText ps).count '\n' ∧ e.column = findColumn (before ++ cs) e.pos

theorem RunFails.cons {first : Nat} {before cs : Str} {e : LexErr} {p : Piece} (hp : p.OK) (h : RunFails first (before ++ p.text) cs e) :
    RunFails first before (p.text ++ cs) e := by
  obtain ⟨ps, rest, h1, h2, h3, h4, h5, h6, h7⟩ := h
  refine ⟨p :: ps, rest, ?_, ?_, h3, h4, ?_, ?_, ?_⟩
  · intro q hq
    rcases List.mem_cons.mp hq with rfl | hq
    · exact hp
    · exact h1 q hq
  · simp [piecesText, h2]
  · simpa [piecesText] using h5
  · simpa [piecesText] using h6
  · simpa using h7

theorem lexRun_spec (first : Nat) (text : Str) : ∀ (n : Nat) (cs before : Str) (st : LexSt), text = before ++ cs → cs.length ≤ n →
    st.line = first + before.count '\n' →
    (∃ ks st', lexRun text n cs before.length st = some (.ok (ks, st')) ∧ RunOK first before cs st ks st') ∨
    (∃ e, lexRun text n cs before.length st = some (.error e) ∧ RunFails first before cs e) := by
  intro n
  induction n with
  | zero =>
    intro cs before st ht hn hl
    have : cs = [] := List.length_eq_zero_iff.mp (by omega)
    subst this
    exact .inl ⟨[], st, rfl, [], by simp, rfl, rfl, by simpa using hl, by simp [directivesAt], by simp [directivesAt, nettypeAfter]⟩
  | succ n ih =>
    intro cs before st ht hn hl
    cases cs with
    | nil => exact .inl ⟨[], st, rfl, [], by simp, rfl, rfl, by simpa using hl, by simp [directivesAt], by simp [directivesAt, nettypeAfter]⟩
    | cons c cs =>
      have hgap : ∀ (s r : Str), Gap s → c :: cs = s ++ r → r.length ≤ n →
          (∃ ks st', lexRun text n r (before ++ s).length (st.skip s) = some (.ok (ks, st')) ∧ RunOK first before (c :: cs) st ks st') ∨
          (∃ e, lexRun text n r (before ++ s).length (st.skip s) = some (.error e) ∧ RunFails first before (c :: cs) e) := by
        intro s r hs hcut hr
        have hline : (st.skip s).line = first + (before ++ s).count '\n' := by
          by_cases hb : s.head? = some '`'
          · rw [skip_head hb]; simp only [hl, List.count_append]; omega
          · rw [skip_other hb]; simp only [hl, List.count_append]; omega
        rcases ih r (before ++ s) (st.skip s) (by rw [ht, hcut]; simp) hr hline with ⟨ks, st', h1, ps, g1, g2, g3, g4, g5, g6⟩ | ⟨e, h1, h2⟩
        · refine .inl ⟨ks, st', h1, .gap s :: ps, ?_, ?_, ?_, ?_, ?_, ?_⟩
          · intro p hp
            rcases List.mem_cons.mp hp with rfl | hp
            · exact hs
            · exact g1 p hp
          · rw [hcut, g2]; simp [piecesText, Piece.text]
          · simpa [tokensAt] using g3
          · rw [g4, hcut]; simp
          · rw [g5]
            by_cases hb : s.head? = some '`'
            · rw [skip_head hb]; simp [directivesAt, hb, hl]
            · rw [skip_other hb]; simp [directivesAt, hb]
          · rw [g6]
            by_cases hb : s.head? = some '`'
            · rw [skip_head hb]; simp [directivesAt, hb, nettypeAfter_cons]
            · rw [skip_other hb]; simp [directivesAt, hb]
        · refine .inr ⟨e, h1, ?_⟩
          rw [hcut]
          exact RunFails.cons (p := .gap s) hs h2
      by_cases hb : c = ' ' ∨ c = '\t'
      · have hs : Gap [c] := by rcases hb with rfl | rfl; exacts [.blank, .tab]
        have hsk : st.skip [c] = st := by
          rw [skip_other (by rcases hb with rfl | rfl <;> decide)]
          rcases hb with rfl | rfl <;> rfl
        have := hgap [c] cs hs rfl (by simp at hn; omega)
        rw [hsk] at this
        simpa only [lexRun, if_pos hb, List.length_append, List.length_singleton] using this
      · cases ht' : lexTok (c :: cs) with
        | none =>
          refine .inr ⟨⟨c, st.line, findColumn text before.length, before.length⟩, by simp only [lexRun, if_neg hb, ht'], ?_⟩
          exact ⟨[], cs, by simp, rfl, hb, ht', by simp [piecesText], by simpa [piecesText] using hl, by rw [ht]⟩
        | some x =>
          obtain ⟨o, r⟩ := x
          have hlt := lexTok_shrinks _ _ _ ht'
          have hcut := lexTok_cut _ _ _ ht'
          simp only [List.length_cons] at hlt hn
          cases o with
          | none =>
            obtain ⟨s, hs, hcut⟩ := hcut
            have hu : (c :: cs).take ((c :: cs).length - r.length) = s := by
              rw [hcut]; simp
            have := hgap s r hs hcut (by omega)
            simp only [lexRun, if_neg hb, ht', hu]
            simpa only [List.length_append] using this
          | some t =>
            obtain ⟨hsp, hcut⟩ := hcut
            have hu : (c :: cs).length - r.length = t.text.length := by
              rw [hcut]; simp
            simp only [lexRun, if_neg hb, ht', hu]
            -- no newline in a token
            have hnl : '\n' ∉ t.text := hsp.noNewline
            rcases ih r (before ++ t.text) st (by rw [ht, hcut]; simp) (by omega) (by
                rw [List.count_append, List.count_eq_zero.mpr hnl]; simpa using hl) with ⟨ks, st', h1, ps, g1, g2, g3, g4, g5, g6⟩ | ⟨e, h1, h2⟩
            · rw [List.length_append] at h1
              refine .inl ⟨⟨t, st.line, before.length⟩ :: ks, st', by simp [h1], .tok t :: ps, ?_, ?_, ?_, ?_, ?_, ?_⟩
              · intro p hp
                rcases List.mem_cons.mp hp with rfl | hp
                · exact hsp
                · exact g1 p hp
              · rw [hcut, g2]; simp [piecesText, Piece.text]
              · simp [tokensAt, g3, hl]
              · rw [g4, hcut]; simp
              · simpa [directivesAt] using g5
              · simpa [directivesAt] using g6
            · rw [List.length_append] at h1
              refine .inr ⟨e, by simp [h1], ?_⟩
              rw [hcut]
              exact RunFails.cons (p := .tok t) hsp h2

/-! ## Where nothing can be read -/

theorem scanLine_some {s r : Str} (h : '\n' ∉ s) : scanLine (s ++ '\n' :: r) = some r := by
  induction s with
  | nil => simp [scanLine]
  | cons c s ih =>
    simp only [List.mem_cons, not_or] at h
    simp only [List.cons_append, scanLine, if_neg (Ne.symm h.1), ih h.2]

theorem scanComment_some (s r : Str) : ∃ x, scanComment (s ++ '*' :: '/' :: r) = some x := by
  generalize hl : s ++ '*' :: '/' :: r = cs
  induction cs using scanComment.induct generalizing s with
  | case1 r => exact ⟨_, by rw [scanComment]⟩
  | case2 c t hne ih =>
    cases s with
    | nil => simp only [List.nil_append, List.cons.injEq] at hl; exact absurd hl.2.symm (by rintro h; exact hne _ hl.1.symm h)
    | cons d s =>
      simp only [List.cons_append, List.cons.injEq] at hl
      obtain ⟨x, hx⟩ := ih s hl.2
      refine ⟨x, ?_⟩
      rw [scanComment]
      · exact hx
      · intro r' h1 h2; exact hne r' h1 h2
  | case3 => simp at hl

theorem scanStr_some {b r : Str} (h : StrBody b) : scanStr (b ++ '"' :: r) = some (b, r) := by
  induction h with
  | nil => rfl
  | chr c s h1 h2 h3 _ ih =>
    rw [List.cons_append, scanStr]
    · simp [ih]
    all_goals (intros; simp_all)
  | esc c s h1 _ ih => simp only [List.cons_append, scanStr, h1, if_true, ih, Option.map_some]

theorem lexTok_none_iff {cs : Str} (h : lexTok cs = none) :
    scanSkip cs = none ∧ scanQuoted cs = none ∧ scanInt cs = none ∧ scanId cs = none ∧ cs.head? ≠ some '\n' ∧ scanPun cs = none := by
  unfold lexTok at h
  split at h
  · simp at h
  next h1 =>
  split at h
  · simp at h
  next h2 =>
  split at h
  · simp at h
  next h3 =>
  split at h
  · simp at h
  next h4 =>
  split at h
  · simp at h
  next h5 =>
  split at h
  · simp at h
  next h6 =>
  split at h
  · simp at h
  next h7 =>
  refine ⟨h1, h2, h4, h5, ?_, h7⟩
  intro hh
  cases cs with
  | nil => simp at hh
  | cons c cs => simp at hh; subst hh; exact h6 _ rfl

theorem scanInt_digit {c : Char} {r : Str} (h : isDig c = true) : scanInt (c :: r) ≠ none := by
  unfold scanInt
  split
  · simp
  · simp [h]

theorem base_rule {b f : Char} (h : baseDigit b f) (sgn : Bool) (hx : ¬ (sgn = true ∧ b ∈ ['b', 'B'] ∧ f = 'X')) :
    ∃ ru ∈ intRules, ru.1 = sgn ∧ b ∈ ru.2.1 ∧ f ∈ ru.2.2.1 := by
  rcases h with ⟨h1, h2⟩ | ⟨h1, h2⟩ | ⟨h1, h2⟩ | ⟨h1, h2⟩
  · cases sgn with
    | true =>
      refine ⟨(true, "bB".toList, "01xZz?".toList, "01xXzZ?_".toList), by simp [intRules], rfl, h1, ?_⟩
      have : f ≠ 'X' := fun e => hx ⟨rfl, h1, e⟩
      have key : ∀ f ∈ "01xXzZ?".toList, f ≠ 'X' → f ∈ "01xZz?".toList := by decide
      exact key f h2 this
    | false => exact ⟨(false, "bB".toList, "01xXzZ?".toList, "01xXzZ?_".toList), by simp [intRules], rfl, h1, h2⟩
  · cases sgn with
    | true => exact ⟨(true, "oO".toList, "01234567xXzZ?".toList, "01234567xXzZ?_".toList), by simp [intRules], rfl, h1, h2⟩
    | false => exact ⟨(false, "oO".toList, "01234567xXzZ?".toList, "01234567xXzZ?_".toList), by simp [intRules], rfl, h1, h2⟩
  · cases sgn with
    | true => exact ⟨(true, "hH".toList, "0123456789abcdefABCDEFxXzZ?".toList, "0123456789abcdefABCDEFxXzZ?_".toList), by simp [intRules], rfl, h1, h2⟩
    | false => exact ⟨(false, "hH".toList, "0123456789abcdefABCDEFxXzZ?".toList, "0123456789abcdefABCDEFxXzZ?_".toList), by simp [intRules], rfl, h1, h2⟩
  · cases sgn with
    | true => exact ⟨(true, "dD".toList, "0123456789xXzZ?".toList, "0123456789xXzZ?_".toList), by simp [intRules], rfl, h1, h2⟩
    | false => exact ⟨(false, "dD".toList, "0123456789xXzZ?".toList, "0123456789xXzZ?_".toList), by simp [intRules], rfl, h1, h2⟩

theorem scanInt_lit {s : Str} (h : IntLit s) (r : Str) : scanInt (s ++ r) ≠ none := by
  cases h with
  | dec d ds h1 _ => exact scanInt_digit h1
  | based size sg b f ds h1 h2 h3 _ h5 =>
    cases size with
    | cons c size => exact scanInt_digit (h1 c (by simp))
    | nil =>
      intro hn
      unfold scanInt at hn
      split at hn
      · simp at hn
      next hb =>
      unfold scanBased at hb
      simp only [List.nil_append, List.cons_append, List.append_assoc, List.dropWhile_cons, show isDig '\'' = false by decide, Bool.false_eq_true, if_false,
        Option.map_eq_none_iff, List.findSome?_eq_none_iff] at hb
      obtain ⟨ru, hru, e1, e2, e3⟩ := base_rule h3 (decide (sg ≠ [])) (by simpa using h5)
      have hb := hb ru hru
      unfold scanBase at hb
      rcases h2 with rfl | rfl | rfl
      · simp [e1, e2, e3, optChar] at hb
      · simp [e1, e2, e3, optChar] at hb
      · simp [e1, e2, e3, optChar] at hb

/-- Where the lexer fails, no well-formed token and no comment, directive or newline begins. -/
theorem lexTok_none_pieces {c : Char} {cs : Str} (h : lexTok (c :: cs) = none) (hb : ¬ (c = ' ' ∨ c = '\t')) (p : Piece) (hp : p.OK) :
    ¬ p.text <+: c :: cs := by
  obtain ⟨h1, h2, h4, h5, h6, h7⟩ := lexTok_none_iff h
  rintro ⟨r, hr⟩
  rw [← hr] at h1 h2 h4 h5 h6 h7
  have hstart : ∀ {d : Char} {t : Str}, isIdStart d = true → scanId (d :: t) ≠ none := by
    intro d t hd; simp [scanId, hd]
  cases p with
  | gap s =>
    simp only [Piece.OK] at hp
    simp only [Piece.text] at h1 h2 h4 h5 h6 h7 hr
    cases hp with
    | blank => simp only [List.cons_append, List.cons.injEq] at hr; exact hb (.inl hr.1.symm)
    | tab => simp only [List.cons_append, List.cons.injEq] at hr; exact hb (.inr hr.1.symm)
    | newline => simp at h6
    | line s hs =>
      simp only [List.cons_append, List.append_assoc, List.nil_append, scanSkip, scanLine_some hs] at h1
      simp at h1
    | block s hs =>
      simp only [List.cons_append, List.append_assoc, List.nil_append, scanSkip] at h1
      obtain ⟨x, hx⟩ := scanComment_some s r
      rw [hx] at h1; simp at h1
    | directive s hs =>
      simp only [List.cons_append, List.append_assoc, List.nil_append, scanSkip, scanLine_some hs] at h1
      simp at h1
  | tok t =>
    simp only [Piece.OK] at hp
    simp only [Piece.text] at h1 h2 h4 h5 h6 h7 hr
    cases t with
    | p k =>
      simp only [Tok.text] at h7
      unfold scanPun at h7
      rw [List.findSome?_eq_none_iff] at h7
      have hk := h7 k (by cases k <;> decide)
      rw [if_pos (by rw [List.isPrefixOf_iff_prefix]; exact ⟨r, rfl⟩)] at hk
      simp at hk
    | id s =>
      rcases hp with ⟨⟨d, t, rfl, g1, _⟩, _⟩ | ⟨t, rfl, g1, g2⟩
      · exact hstart g1 h5
      · cases t with
        | nil => exact g1 rfl
        | cons d t =>
          have hd := g2 d (by simp)
          have hb' : isIdStart '\\' = false := by decide
          simp [scanId, Tok.text, hd, hb'] at h5
    | kw s =>
      have key : ∀ w ∈ reservedWords, w.head?.any isIdStart = true := by decide +kernel
      have := key s hp
      cases s with
      | nil => simp at this
      | cons d s => simp at this; exact hstart this h5
    | int s => exact scanInt_lit hp r h4
    | flt s =>
      simp only [Tok.Spelt] at hp
      simp only [Tok.text] at h4 h7
      cases hp with
      | frac d f x g1 g2 g3 _ =>
        cases d with
        | cons d ds => exact scanInt_digit (g1 d (by simp)) h4
        | nil =>
          unfold scanPun at h7
          rw [List.findSome?_eq_none_iff] at h7
          have hk := h7 .dot (by decide)
          simp [Pun.text] at hk
      | expo d x g1 g2 _ =>
        cases d with
        | cons d ds => exact scanInt_digit (g1 d (by simp)) h4
        | nil => exact g2 rfl
    | str s =>
      obtain ⟨b, g1, rfl⟩ := hp
      simp only [Tok.text, List.cons_append, List.append_assoc, List.nil_append, scanQuoted, scanStr_some g1] at h2
      simp at h2

/-! ## C79 -/

/-- **C79** Lexing always ends, with tokens or with an error. -/
theorem C79_total (text : Str) (st : LexSt) : ∃ r, lexText text st = some r := by
  rcases lexRun_spec st.line text text.length text [] st rfl (Nat.le_refl _) (by simp) with ⟨ks, st', h, _⟩ | ⟨e, h, _⟩
  · exact ⟨_, h⟩
  · exact ⟨_, h⟩

/-- **C79** When lexing succeeds, the text is a sequence of well-formed tokens, blanks, newlines, comments and directives:
nothing is lost.  The tokens reported are the tokens of this sequence, each with the line and the position at which it
begins; the directives reported are those reported before and those of the sequence, with their lines; the default net
type is that of the last directive that gives one; and the lexer goes on with the line after the text. -/
theorem C79_tokens (text : Str) (st st' : LexSt) (ks : List LTok) (h : lexText text st = some (.ok (ks, st'))) :
    ∃ ps : List Piece, (∀ p ∈ ps, p.OK) ∧ text = piecesText ps ∧ ks = tokensAt st.line [] ps ∧
      st'.line = st.line + text.count '\n' ∧ st'.directives = st.directives ++ directivesAt st.line [] ps ∧
      st'.nettype = nettypeAfter st.nettype (directivesAt st.line [] ps) := by
  rcases lexRun_spec st.line text text.length text [] st rfl (Nat.le_refl _) (by simp) with ⟨ks', st'', h', ps, h1, h2, h3, h4, h5, h6⟩ | ⟨e, h', _⟩
  · unfold lexText at h
    simp only [List.length_nil] at h'
    rw [h] at h'
    simp only [Option.some.injEq, Except.ok.injEq, Prod.mk.injEq] at h'
    obtain ⟨rfl, rfl⟩ := h'
    exact ⟨ps, h1, h2, h3, by simpa using h4, h5, h6⟩
  · unfold lexText at h
    simp only [List.length_nil] at h'
    rw [h] at h'; simp at h'

/-- **C79** Which directives give a default net type: the word `` `default_nettype ``, then blanks, then the net type (which
goes on to the end of the line).  No other line does, unless it has nothing but blanks after the word. -/
theorem C79_nettype :
    (∀ blanks net : Str, blanks ≠ [] → (∀ c ∈ blanks, isSp c = true) → net ≠ [] → net.head?.all (fun c => !isSp c) = true →
      nettypeOf ("`default_nettype".toList ++ blanks ++ net ++ ['\n']) = some net) ∧
    (∀ line : Str, (∀ blanks rest : Str, blanks ≠ [] → (∀ c ∈ blanks, isSp c = true) → line ≠ "`default_nettype".toList ++ blanks ++ rest) →
      nettypeOf (line ++ ['\n']) = none) := by
  constructor
  · intro b x hb hsp hx hh
    have h1 : ("`default_nettype".toList).isPrefixOf ("`default_nettype".toList ++ b ++ x ++ ['\n']) = true := by
      rw [List.isPrefixOf_iff_prefix]; exact ⟨b ++ x ++ ['\n'], by simp⟩
    have h2 : (("`default_nettype".toList ++ b ++ x ++ ['\n']).drop ("`default_nettype".toList).length).dropLast = b ++ x := by
      rw [List.append_assoc, List.append_assoc, List.drop_left, ← List.append_assoc, List.dropLast_concat]
    simp only [nettypeOf]
    rw [if_pos h1, h2]
    cases b with
    | nil => exact absurd rfl hb
    | cons c r =>
      have hc := hsp c (by simp)
      have hd : ((c :: r) ++ x).dropWhile isSp = x := by
        rw [List.dropWhile_append_of_pos hsp]
        cases x with
        | nil => exact absurd rfl hx
        | cons d x => simp at hh; simp [hh]
      simp only [List.cons_append] at hd ⊢
      simp only [hc, if_true, hd]
  · intro line h
    simp only [nettypeOf]
    by_cases h1 : ("`default_nettype".toList).isPrefixOf (line ++ ['\n']) = true
    · rw [if_pos h1]
      obtain ⟨t, ht⟩ := List.isPrefixOf_iff_prefix.mp h1
      have ht' : t ≠ [] := by
        rintro rfl
        rw [List.append_nil] at ht
        have := congrArg List.getLast? ht
        rw [List.getLast?_append] at this
        simp at this
      have hl : line = "`default_nettype".toList ++ t.dropLast := by
        have := congrArg List.dropLast ht
        rw [List.dropLast_append_of_ne_nil ht', List.dropLast_concat] at this
        exact this.symm
      rw [← ht, List.drop_left]
      cases hd : t.dropLast with
      | nil => rfl
      | cons c r =>
        simp only []
        rw [if_neg]
        intro hc
        exact h [c] r (by simp) (by simpa using hc) (by rw [hl, hd]; simp)
    · rw [if_neg h1]

example : nettypeOf "`default_nettype  none\n".toList = some "none".toList :=
  C79_nettype.1 "  ".toList "none".toList (by decide) (by decide) (by decide) (by decide)
example : nettypeOf "`timescale 1ns\n".toList = none :=
  C79_nettype.2 "`timescale 1ns".toList (by
    intro b r _ _ h
    have := congrArg (List.take 5) h
    rw [List.append_assoc, List.take_append_of_le_length (by decide)] at this
    revert this; decide)

theorem tokensAt_mem {first : Nat} {k : LTok} : ∀ {ps : List Piece} {before : Str}, k ∈ tokensAt first before ps →
    k.tok.text <+: (before ++ piecesText ps).drop k.pos ∧ k.line = first + ((before ++ piecesText ps).take k.pos).count '\n' := by
  intro ps
  induction ps with
  | nil => intro before h; simp [tokensAt] at h
  | cons p ps ih =>
    intro before h
    have e : before ++ piecesText (p :: ps) = before ++ p.text ++ piecesText ps := by simp [piecesText]
    cases p with
    | gap s => rw [e]; exact ih h
    | tok t =>
      simp only [tokensAt] at h
      rcases List.mem_cons.mp h with rfl | h
      · rw [e]
        simp [Piece.text]
      · rw [e]; exact ih h

/-- **C79** Each token stands in the text at its position, and its line is the number of the line in which it stands. -/
theorem C79_positions (text : Str) (st st' : LexSt) (ks : List LTok) (h : lexText text st = some (.ok (ks, st'))) :
    ∀ k ∈ ks, k.tok.text <+: text.drop k.pos ∧ k.line = st.line + (text.take k.pos).count '\n' := by
  obtain ⟨ps, _, rfl, rfl, _⟩ := C79_tokens text st st' ks h
  intro k hk
  simpa using tokensAt_mem hk

/-- **C79** When lexing fails, what stands before the reported character is a sequence of tokens and text that is passed
over, and none of these begins at that character; its line is right. -/
theorem C79_error (text : Str) (st : LexSt) (e : LexErr) (h : lexText text st = some (.error e)) :
    ∃ (ps : List Piece) (rest : Str), (∀ p ∈ ps, p.OK) ∧ text = piecesText ps ++ e.char :: rest ∧ e.pos = (piecesText ps).length ∧
      e.line = st.line + (text.take e.pos).count '\n' ∧ ∀ p : Piece, p.OK → ¬ p.text <+: e.char :: rest := by
  rcases lexRun_spec st.line text text.length text [] st rfl (Nat.le_refl _) (by simp) with ⟨ks', st'', h', _⟩ | ⟨e', h', ps, rest, h1, h2, h3, h4, h5, h6, _⟩
  · unfold lexText at h
    simp only [List.length_nil] at h'
    rw [h] at h'; simp at h'
  · unfold lexText at h
    simp only [List.length_nil] at h'
    rw [h] at h'
    simp only [Option.some.injEq, Except.error.injEq] at h'
    subst h'
    simp only [List.nil_append] at h5 h6
    refine ⟨ps, rest, h1, h2, h5, ?_, fun p hp => lexTok_none_pieces h4 h3 p hp⟩
    rw [h6, h5, h2]; simp

/-- The column of a position: one more than the number of characters between the last newline (or the beginning of the
text) and the position. -/
def columnOf (text : Str) (pos : Nat) : Nat := ((text.take pos).reverse.takeWhile (· ≠ '\n')).length + 1

theorem lineStart_le (text : Str) : ∀ i, lineStart text i ≤ i
  | 0 => Nat.le_refl _
  | i + 1 => by unfold lineStart; split; exact Nat.le_refl _; exact Nat.le_succ_of_le (lineStart_le text i)

/-- The position that the loop of `_find_tok_column` finds. -/
theorem lineStart_spec (text : Str) : ∀ (i : Nat), i < text.length → text[i]? ≠ some '\n' →
    ((text.take i).reverse.takeWhile (· ≠ '\n')).length = i - lineStart text i - (if '\n' ∈ text.take i then 1 else 0) ∧
      ('\n' ∈ text.take i → lineStart text i < i) := by
  intro i
  induction i with
  | zero => intro _ _; simp [lineStart]
  | succ i ih =>
    intro hi hne
    have hi' : i < text.length := by omega
    have ht : (text.take (i + 1)) = text.take i ++ [text[i]] := by
      rw [List.take_succ_eq_append_getElem hi']
    have hs : lineStart text (i + 1) = lineStart text i := by
      conv_lhs => unfold lineStart
      rw [if_neg hne]
    rw [ht, hs]
    by_cases hc : text[i] = '\n'
    · have hls : lineStart text i = i := by
        cases i with
        | zero => rfl
        | succ j =>
          unfold lineStart
          rw [if_pos (by rw [List.getElem?_eq_getElem hi', hc])]
      rw [hls]
      simp [hc]
    · have hne' : text[i]? ≠ some '\n' := by
        rw [List.getElem?_eq_getElem hi']; simpa using hc
      obtain ⟨h1, h2⟩ := ih hi' hne'
      have hle := lineStart_le text i
      have hmem : ('\n' ∈ text.take i ++ [text[i]]) ↔ '\n' ∈ text.take i := by
        simp only [List.mem_append, List.mem_singleton]
        constructor
        · rintro (h | h)
          · exact h
          · exact absurd h.symm hc
        · exact .inl
      simp only [hmem]
      refine ⟨?_, fun h => Nat.lt_succ_of_lt (h2 h)⟩
      rw [List.reverse_append, List.reverse_singleton, List.singleton_append, List.takeWhile_cons, if_pos (by simpa using hc),
        List.length_cons, h1]
      split
      · next hm => have := h2 hm; omega
      · omega

/-- **C80** (a defect) The column of a lexical error: right in the first line, one too large in every other line. -/
theorem C80_column (text : Str) (st : LexSt) (e : LexErr) (h : lexText text st = some (.error e)) :
    e.column = columnOf text e.pos + (if '\n' ∈ text.take e.pos then 1 else 0) := by
  obtain ⟨ps, rest, h1, h2, h3, h4, h5⟩ := C79_error text st e h
  have hcol : e.column = findColumn text e.pos := by
    rcases lexRun_spec st.line text text.length text [] st rfl (Nat.le_refl _) (by simp) with ⟨ks', st'', h', _⟩ | ⟨e', h', _, _, _, _, _, _, _, _, h7⟩
    · unfold lexText at h
      simp only [List.length_nil] at h'
      rw [h] at h'; simp at h'
    · unfold lexText at h
      simp only [List.length_nil] at h'
      rw [h] at h'
      simp only [Option.some.injEq, Except.error.injEq] at h'
      subst h'
      simpa using h7
  have hget : text[e.pos]? = some e.char := by rw [h2, h3]; simp
  have hlt : e.pos < text.length := by
    rw [h2, h3]; simp
  have hne : text[e.pos]? ≠ some '\n' := by
    rw [hget]
    intro hc
    simp only [Option.some.injEq] at hc
    exact h5 (.gap ['\n']) .newline ⟨rest, by rw [hc]; rfl⟩
  obtain ⟨g1, g2⟩ := lineStart_spec text e.pos hlt hne
  have hle := lineStart_le text e.pos
  rw [hcol, findColumn, columnOf, g1]
  split
  · next hm => have := g2 hm; omega
  · omega

/-- **C80** (a defect) A parser that reads a second text counts the lines on: every token of it is reported with the
number of lines of the first text added, and the directives of the first text are reported again. -/
theorem C80_second_text (t1 t2 : Str) (st st1 st2 : LexSt) (ks1 ks2 : List LTok) (h1 : lexText t1 st = some (.ok (ks1, st1)))
    (h2 : lexText t2 st1 = some (.ok (ks2, st2))) :
    (∀ k ∈ ks2, k.line = st.line + t1.count '\n' + (t2.take k.pos).count '\n') ∧ st1.directives <+: st2.directives := by
  obtain ⟨_, _, _, _, h3, _⟩ := C79_tokens _ _ _ _ h1
  obtain ⟨_, _, _, _, _, h4, _⟩ := C79_tokens _ _ _ _ h2
  refine ⟨fun k hk => ?_, ?_⟩
  · rw [(C79_positions _ _ _ _ h2 k hk).2, h3]
  · rw [h4]; exact ⟨_, rfl⟩

theorem lexRun_lexN (text : Str) : ∀ (n : Nat) (cs : Str) (pos : Nat) (st : LexSt), cs.length ≤ n →
    lexN n cs = match lexRun text n cs pos st with
      | some (.ok (ks, _)) => some (ks.map LTok.tok)
      | _ => none := by
  intro n
  induction n with
  | zero =>
    intro cs pos st h
    have : cs = [] := List.length_eq_zero_iff.mp (by omega)
    subst this; rfl
  | succ n ih =>
    intro cs pos st h
    cases cs with
    | nil => rfl
    | cons c cs =>
      simp only [List.length_cons] at h
      simp only [lexN, lexRun]
      split
      · exact ih cs _ _ (by omega)
      · cases ht : lexTok (c :: cs) with
        | none => rfl
        | some x =>
          obtain ⟨o, r⟩ := x
          have hlt := lexTok_shrinks _ _ _ ht
          simp only [List.length_cons] at hlt
          cases o with
          | none => exact ih r _ _ (by omega)
          | some t =>
            simp only
            rw [ih r (pos + ((c :: cs).length - r.length)) st (by omega)]
            cases hr : lexRun text n r (pos + ((c :: cs).length - r.length)) st with
            | none => rfl
            | some y =>
              cases y with
              | error e => rfl
              | ok z => rfl

/-- **C79** The tokens read by the parser (C41, C65, C70) are these tokens. -/
theorem C79_parser_tokens (text : Str) (st : LexSt) :
    lex text = match lexText text st with
      | some (.ok (ks, _)) => some (ks.map LTok.tok)
      | _ => none := lexRun_lexN text text.length text 0 st (Nat.le_refl _)

/-! ### Non-vacuity -/

example : lexText "`default_nettype none\n/* a\nb */ x = 4'b1z; // c\n`define\n \\esc\"\\n\"".toList {} =
    some (.ok ([⟨.id ['x'], 3, 32⟩, ⟨.p .equals, 3, 34⟩, ⟨.int "4'b1z".toList, 3, 36⟩, ⟨.p .semicolon, 3, 41⟩,
        ⟨.id "\\esc\"\\n\"".toList, 5, 57⟩],
      ⟨5, [(1, "`default_nettype none\n".toList), (4, "`define\n".toList)], "none".toList⟩)) := by decide +kernel

example : lexText "a\n b \"x".toList {} = some (.error ⟨'"', 2, 5, 5⟩) := by decide +kernel
example : columnOf "a\n b \"x".toList 5 = 4 := by decide +kernel

end Pyv
