import Verif.Props.LexProps
/-
  Re-indenting a text does not change its tokens.
-/
namespace Pyv

/-- `s'` is `s` with blanks inserted at the beginning of some lines (not of the first). -/
inductive Reindent : Str → Str → Prop
  | nil : Reindent [] []
  | chr (c : Char) {s s' : Str} : c ≠ '\n' → Reindent s s' → Reindent (c :: s) (c :: s')
  | nl (n : Nat) {s s' : Str} : Reindent s s' → Reindent ('\n' :: s) ('\n' :: (List.replicate n ' ' ++ s'))

theorem Reindent.refl : ∀ s : Str, Reindent s s
  | [] => .nil
  | c :: s => by
    by_cases h : c = '\n'
    · subst h; exact Reindent.nl 0 (Reindent.refl s)
    · exact .chr c h (Reindent.refl s)

theorem Reindent.append {a a' b b' : Str} (h : Reindent a a') (h2 : Reindent b b') : Reindent (a ++ b) (a' ++ b') := by
  induction h with
  | nil => exact h2
  | chr c hc _ ih => exact .chr c hc ih
  | nl n _ ih =>
    simp only [List.cons_append, List.append_assoc]
    exact .nl n ih

theorem Reindent.tail {c : Char} {s s' : Str} (h : Reindent (c :: s) s') (hc : c ≠ '\n') : ∃ t, s' = c :: t ∧ Reindent s t := by
  cases h with
  | chr c _ h => exact ⟨_, rfl, h⟩
  | nl n h => exact absurd rfl hc

theorem Reindent.head? {s s' : Str} (h : Reindent s s') : s'.head? = s.head? := by cases h <;> rfl

theorem Reindent.spaces {s s' : Str} (n : Nat) (h : Reindent s (List.replicate n ' ' ++ s')) :
    ∃ t, s = List.replicate n ' ' ++ t ∧ Reindent t s' := by
  induction n generalizing s with
  | zero => exact ⟨s, rfl, h⟩
  | succ n ih =>
    rw [List.replicate_succ, List.cons_append] at h
    cases h with
    | chr c _ h =>
      obtain ⟨t, rfl, ht⟩ := ih h
      exact ⟨t, rfl, ht⟩

theorem Reindent.takeWhile {s s' : Str} (p : Char → Bool) (hp : p '\n' = false) (h : Reindent s s') :
    s'.takeWhile p = s.takeWhile p ∧ Reindent (s.dropWhile p) (s'.dropWhile p) := by
  induction h with
  | nil => exact ⟨rfl, .nil⟩
  | chr c hc h ih =>
    cases hpc : p c with
    | true => simp only [List.takeWhile_cons, hpc, if_true, List.dropWhile_cons, ih.1]; exact ⟨trivial, ih.2⟩
    | false =>
      simp only [List.takeWhile_cons, hpc, List.dropWhile_cons, Bool.false_eq_true, if_false]
      exact ⟨trivial, .chr c hc h⟩
  | nl n h ih =>
    simp only [List.takeWhile_cons, hp, List.dropWhile_cons, Bool.false_eq_true, if_false]
    exact ⟨trivial, .nl n h⟩

/-- A scanner that gives the same result, up to re-indentation of the rest. -/
def Same {α : Type} (x y : Option (α × Str)) : Prop :=
  match x, y with
  | some (a, r), some (b, r') => a = b ∧ Reindent r r'
  | none, none => True
  | _, _ => False

theorem scanLine_re {s s' : Str} (h : Reindent s s') :
    (∃ r r', scanLine s = some r ∧ scanLine s' = some r' ∧ (∃ n t, r' = List.replicate n ' ' ++ t ∧ Reindent r t)) ∨
      (scanLine s = none ∧ scanLine s' = none) := by
  induction h with
  | nil => exact .inr ⟨rfl, rfl⟩
  | chr c hc _ ih => simpa only [scanLine, hc, if_false] using ih
  | nl n h _ => exact .inl ⟨_, _, rfl, rfl, n, _, rfl, h⟩

theorem scanComment_re {s s' : Str} (h : Reindent s s') :
    (∃ r r', scanComment s = some r ∧ scanComment s' = some r' ∧ Reindent r r') ∨
      (scanComment s = none ∧ scanComment s' = none) := by
  have hrep : ∀ n t, scanComment (List.replicate n ' ' ++ t) = scanComment t := by
    intro n t
    induction n with
    | zero => rfl
    | succ n ih => rw [List.replicate_succ, List.cons_append, scanComment]; exact ih; simp
  induction h with
  | nil => exact .inr ⟨rfl, rfl⟩
  | chr c hc h ih =>
    rename_i s s'
    by_cases hs : c = '*' ∧ s.head? = some '/'
    · obtain ⟨rfl, hs⟩ := hs
      cases s with
      | nil => simp at hs
      | cons d s =>
        simp only [List.head?_cons, Option.some.injEq] at hs
        subst hs
        obtain ⟨t, rfl, ht⟩ := h.tail (by decide)
        exact .inl ⟨_, _, rfl, rfl, ht⟩
    · have key : ∀ u : Str, u.head? = s.head? → scanComment (c :: u) = scanComment u := by
        intro u hu
        rw [scanComment]
        rintro r rfl rfl
        exact hs ⟨rfl, by simpa using hu.symm⟩
      rw [key s rfl, key s' h.head?]
      exact ih
  | nl n h ih =>
    rw [scanComment, scanComment, hrep]
    · exact ih
    · simp
    · simp

theorem scanStr_re {s s' : Str} (h : Reindent s s') : Same (scanStr s) (scanStr s') := by
  induction hn : s.length using Nat.strongRecOn generalizing s s' with
  | ind n ih =>
  subst hn
  cases h with
  | nil => simp [scanStr, Same]
  | nl n h => simp [scanStr, Same]
  | chr c hc h =>
    rename_i s s'
    by_cases h1 : c = '"'
    · subst h1; exact ⟨rfl, h⟩
    by_cases h2 : c = '\\'
    · subst h2
      cases h with
      | nil => simp [scanStr, Same]
      | chr d hd h =>
        rename_i s s'
        simp only [scanStr]
        have := ih s.length (by simp; omega) h rfl
        unfold Same at this
        split
        · split at this
          · next e1 e2 => rw [e1, e2]; exact ⟨by rw [this.1], this.2⟩
          · next e1 e2 => rw [e1, e2]; trivial
          · exact this.elim
        · trivial
      | nl n h => simp [scanStr, Same, show isEscChar '\n' = false from rfl]
    · have key : ∀ u, scanStr (c :: u) = (scanStr u).map (fun x => (c :: x.1, x.2)) := by
        intro u
        rw [scanStr]
        · exact fun e => h1 e
        · exact fun e => hc e
        · rintro d r e; exact absurd e h2
        · intro e; exact absurd e h2
      rw [key, key]
      have := ih s.length (by simp) h rfl
      unfold Same at this ⊢
      split at this
      · next e1 e2 => rw [e1, e2]; exact ⟨by rw [this.1], this.2⟩
      · next e1 e2 => rw [e1, e2]; trivial
      · exact this.elim

theorem Same.none {α : Type} : Same (α := α) Option.none Option.none := trivial

theorem Same.map {α β : Type} {x y : Option (α × Str)} (f : α → β) (h : Same x y) :
    Same (x.map (fun z => (f z.1, z.2))) (y.map (fun z => (f z.1, z.2))) := by
  unfold Same at h
  split at h
  · exact ⟨by rw [h.1], h.2⟩
  · trivial
  · exact h.elim

theorem Reindent.optChar {s s' : Str} (cl : Str) (hc : '\n' ∉ cl) (h : Reindent s s') :
    Pyv.optChar cl s' = Pyv.optChar cl s ∧
      Reindent (s.drop (Pyv.optChar cl s).length) (s'.drop (Pyv.optChar cl s).length) := by
  cases h with
  | nil => exact ⟨rfl, .nil⟩
  | chr c hn h =>
    simp only [Pyv.optChar]
    split
    · exact ⟨trivial, h⟩
    · exact ⟨trivial, .chr c hn h⟩
  | nl n h =>
    simp only [Pyv.optChar, hc, if_false]
    exact ⟨trivial, .nl n h⟩

theorem scanExp_re {s s' : Str} (h : Reindent s s') : Same (scanExp s) (scanExp s') := by
  cases h with
  | nil => trivial
  | nl n h => simp [scanExp, Same]
  | chr c hc h =>
    rename_i s s'
    simp only [scanExp]
    split
    · obtain ⟨h1, h2⟩ := h.optChar ['-', '+'] (by decide)
      rw [h1]
      obtain ⟨h3, h4⟩ := h2.takeWhile isDig rfl
      rw [h3]
      split
      · trivial
      · exact ⟨rfl, h4⟩
    · trivial

theorem scanFloat_re {s s' : Str} (h : Reindent s s') : Same (scanFloat s) (scanFloat s') := by
  obtain ⟨h1, h2⟩ := h.takeWhile isDig rfl
  have hx := scanExp_re h2
  unfold scanFloat
  rw [h1]
  revert h2 hx
  generalize s.dropWhile isDig = r
  generalize s'.dropWhile isDig = r'
  intro h2 hx
  have rest : r.head? ≠ some '.' → Same (if s.takeWhile isDig = [] then none else (scanExp r).map (fun x => (s.takeWhile isDig ++ x.1, x.2)))
      (if s.takeWhile isDig = [] then none else (scanExp r').map (fun x => (s.takeWhile isDig ++ x.1, x.2))) := by
    intro _
    split
    · trivial
    · exact hx.map _
  cases h2 with
  | nil => exact rest (by simp)
  | nl n h => exact rest (by simp)
  | chr c hc h =>
    by_cases hd : c = '.'
    · subst hd
      obtain ⟨h3, h4⟩ := h.takeWhile isDig rfl
      simp only [h3]
      split
      · trivial
      · have := scanExp_re h4
        unfold Same at this
        split at this
        · next e1 e2 => rw [e1, e2]; exact ⟨by rw [this.1], this.2⟩
        · next e1 e2 => rw [e1, e2]; exact ⟨rfl, h4⟩
        · exact this.elim
    · have := rest (by simpa using hd)
      split
      · next e => simp at e; exact absurd e.1 hd
      · split
        · next e => simp at e; exact absurd e.1 hd
        · exact this

theorem scanBase_re (ru : Bool × Str × Str × Str) (hru : '\n' ∉ ru.2.1 ∧ '\n' ∉ ru.2.2.1 ∧ '\n' ∉ ru.2.2.2) {s s' : Str}
    (h : Reindent s s') : Same (scanBase ru s) (scanBase ru s') := by
  obtain ⟨h1, h2⟩ := h.optChar (if ru.1 then ['s', 'S'] else []) (by split <;> decide)
  simp only [scanBase]
  rw [h1]
  revert h2
  generalize Pyv.optChar (if ru.1 then ['s', 'S'] else []) s = sg
  generalize s.drop sg.length = r
  generalize s'.drop sg.length = r'
  intro h2
  split
  · trivial
  · cases h2 with
    | nil => trivial
    | nl n h =>
      have key : ∀ u : Str, (match ('\n' :: u : Str) with
        | b :: f :: r' => if b ∈ ru.2.1 ∧ f ∈ ru.2.2.1 then
            some (sg ++ b :: f :: r'.takeWhile (fun c => decide (c ∈ ru.2.2.2)), r'.dropWhile (fun c => decide (c ∈ ru.2.2.2)))
          else none
        | _ => none) = none := by
        intro u
        cases u with
        | nil => rfl
        | cons f u => simp [hru.1]
      refine (fun a b (ha : a = none) (hb : b = none) => ?_ : ∀ a b : Option (Str × Str), a = none → b = none → Same a b) _ _
        (key _) (key _)
      rw [ha, hb]; trivial
    | chr c hc h =>
      cases h with
      | nil => trivial
      | nl n h => simp [hru.2.1, Same]
      | chr d hd h =>
        rename_i s s'
        obtain ⟨h3, h4⟩ := h.takeWhile (fun c => decide (c ∈ ru.2.2.2)) (by simp [hru.2.2])
        simp only [h3]
        split
        · exact ⟨rfl, h4⟩
        · trivial

theorem findSome_re {α β : Type} (f g : β → Option (α × Str)) (l : List β) (h : ∀ b ∈ l, Same (f b) (g b)) :
    Same (l.findSome? f) (l.findSome? g) := by
  induction l with
  | nil => trivial
  | cons b l ih =>
    have hb := h b (by simp)
    simp only [List.findSome?_cons]
    unfold Same at hb
    split at hb
    · next e1 e2 => rw [e1, e2]; exact hb
    · next e1 e2 => rw [e1, e2]; exact ih (fun b hb => h b (List.mem_cons_of_mem _ hb))
    · exact hb.elim

theorem scanBased_re {s s' : Str} (h : Reindent s s') : Same (scanBased s) (scanBased s') := by
  obtain ⟨h1, h2⟩ := h.takeWhile isDig rfl
  simp only [scanBased]
  rw [h1]
  revert h2
  generalize s.dropWhile isDig = r
  generalize s'.dropWhile isDig = r'
  intro h2
  cases h2 with
  | nil => trivial
  | nl n h => trivial
  | chr c hc h =>
    by_cases hq : c = '\''
    · subst hq
      refine Same.map (fun x => s.takeWhile isDig ++ '\'' :: x) (findSome_re _ _ _ ?_)
      intro ru hru
      refine scanBase_re ru ?_ h
      have : ∀ ru ∈ intRules, '\n' ∉ ru.2.1 ∧ '\n' ∉ ru.2.2.1 ∧ '\n' ∉ ru.2.2.2 := by decide
      exact this ru hru
    · split
      · next e => simp at e; exact absurd e.1 hq
      · split
        · next e => simp at e; exact absurd e.1 hq
        · trivial

theorem scanInt_re {s s' : Str} (h : Reindent s s') : Same (scanInt s) (scanInt s') := by
  have hb := scanBased_re h
  unfold scanInt
  unfold Same at hb
  split at hb
  · next e1 e2 => rw [e1, e2]; exact hb
  · next e1 e2 =>
    rw [e1, e2]
    cases h with
    | nil => trivial
    | nl n h => simp [show isDig '\n' = false from rfl, Same]
    | chr c hc h =>
      obtain ⟨h3, h4⟩ := h.takeWhile (fun c => isDig c || c == '_') (by decide)
      simp only [h3]
      split
      · exact ⟨rfl, h4⟩
      · trivial
  · exact hb.elim

theorem scanId_re {s s' : Str} (h : Reindent s s') : Same (scanId s) (scanId s') := by
  cases h with
  | nil => trivial
  | nl n h => simp [scanId, show isIdStart '\n' = false from rfl, Same]
  | chr c hc h =>
    obtain ⟨h1, h2⟩ := h.takeWhile isIdChar rfl
    obtain ⟨h3, h4⟩ := h.takeWhile (fun c => !isSp c) rfl
    simp only [scanId, h1, h3]
    split
    · exact ⟨rfl, h2⟩
    · split
      · exact ⟨rfl, h4⟩
      · trivial

theorem Reindent.prefix (p : Str) : ∀ {s s' : Str}, '\n' ∉ p → Reindent s s' →
    p.isPrefixOf s' = p.isPrefixOf s ∧ (p.isPrefixOf s = true → Reindent (s.drop p.length) (s'.drop p.length)) := by
  induction p with
  | nil => intro s s' _ h; exact ⟨by cases s <;> cases s' <;> rfl, fun _ => h⟩
  | cons c p ih =>
    intro s s' hp h
    simp only [List.mem_cons, not_or] at hp
    cases h with
    | nil => exact ⟨rfl, fun h => by simp at h⟩
    | nl n h =>
      have : (c == '\n') = false := by simpa using fun e => hp.1 e.symm
      simp [List.isPrefixOf, this]
    | chr d hd h =>
      obtain ⟨h1, h2⟩ := ih hp.2 h
      simp only [List.isPrefixOf, h1, true_and, Bool.and_eq_true, List.length_cons, List.drop_succ_cons]
      exact fun e => h2 e.2

theorem scanPun_re {s s' : Str} (h : Reindent s s') : Same (scanPun s) (scanPun s') := by
  refine findSome_re _ _ _ (fun k _ => ?_)
  obtain ⟨h1, h2⟩ := h.prefix k.text (by cases k <;> decide)
  rw [h1]
  split
  · next e => exact ⟨rfl, h2 e⟩
  · trivial

/-- What is left of a re-indented text: after a newline, blanks may have been inserted in front. -/
def Rest (r r' : Str) : Prop := ∃ n t, r' = List.replicate n ' ' ++ t ∧ Reindent r t

theorem Reindent.rest {r r' : Str} (h : Reindent r r') : Rest r r' := ⟨0, r', rfl, h⟩

theorem scanSkip_re {s s' : Str} (h : Reindent s s') :
    (∃ r r', scanSkip s = some r ∧ scanSkip s' = some r' ∧ Rest r r') ∨ (scanSkip s = none ∧ scanSkip s' = none) := by
  have line : ∀ {s s' : Str}, Reindent s s' → (∃ r r', scanLine s = some r ∧ scanLine s' = some r' ∧ Rest r r') ∨
      (scanLine s = none ∧ scanLine s' = none) := fun h => scanLine_re h
  cases h with
  | nil => exact .inr ⟨rfl, rfl⟩
  | nl n h => exact .inr ⟨rfl, rfl⟩
  | chr c hc h =>
    rename_i s s'
    by_cases h1 : c = '`'
    · subst h1; exact line h
    by_cases h2 : c = '/' ∧ (s.head? = some '/' ∨ s.head? = some '*')
    · obtain ⟨rfl, h2⟩ := h2
      cases s with
      | nil => simp at h2
      | cons d s =>
        have hd : d ≠ '\n' := by rintro rfl; simp at h2
        obtain ⟨t, rfl, ht⟩ := h.tail hd
        simp only [List.head?_cons, Option.some.injEq] at h2
        rcases h2 with rfl | rfl
        · exact line ht
        · rcases scanComment_re ht with ⟨r, r', e1, e2, e3⟩ | e
          · exact .inl ⟨r, r', e1, e2, e3.rest⟩
          · exact .inr e
    · have key : ∀ u : Str, u.head? = s.head? → scanSkip (c :: u) = none := by
        intro u hu
        unfold scanSkip
        split
        · next e => simp at e; exact absurd e.1 h1
        · next e => simp at e; obtain ⟨rfl, rfl⟩ := e; exact absurd ⟨rfl, .inl (by simpa using hu.symm)⟩ h2
        · next e => simp at e; obtain ⟨rfl, rfl⟩ := e; exact absurd ⟨rfl, .inr (by simpa using hu.symm)⟩ h2
        · rfl
      exact .inr ⟨key s rfl, key s' h.head?⟩

/-- The result of a scanner, or of the rules after it. -/
def orTok {α : Type} (x : Option (α × Str)) (f : α → Option Tok) (F : Option (Option Tok × Str)) : Option (Option Tok × Str) :=
  match x with
  | some (a, r) => some (f a, r)
  | none => F

/-- Both results are the same token with re-indented rests, or both are errors. -/
def SameTok (F G : Option (Option Tok × Str)) : Prop :=
  (∃ t r r', F = some (t, r) ∧ G = some (t, r') ∧ Rest r r') ∨ (F = none ∧ G = none)

theorem orTok_re {α : Type} {x y : Option (α × Str)} (f : α → Option Tok) {F G : Option (Option Tok × Str)} (hs : Same x y)
    (hr : SameTok F G) : SameTok (orTok x f F) (orTok y f G) := by
  unfold Same at hs
  split at hs
  · exact .inl ⟨_, _, _, rfl, by rw [hs.1]; rfl, hs.2.rest⟩
  · exact hr
  · exact hs.elim

/-- The rules after identifiers. -/
def tailTok (cs : Str) : Option (Option Tok × Str) :=
  match cs with
  | '\n' :: r => some (none, r)
  | _ => orTok (scanPun cs) (fun k => some (.p k)) none

theorem lexTok_eq (cs : Str) (h : scanSkip cs = none) : lexTok cs =
    orTok (scanQuoted cs) (fun a => some (.str ('"' :: a ++ ['"'])))
      (orTok (scanFloat cs) (fun a => some (.flt a))
        (orTok (scanInt cs) (fun a => some (.int a))
          (orTok (scanId cs) (fun a => some (if a ∈ reservedWords then .kw a else .id a)) (tailTok cs)))) := by
  unfold lexTok orTok tailTok
  rw [h]
  cases scanQuoted cs with
  | some x => rfl
  | none =>
    cases scanFloat cs with
    | some x => rfl
    | none =>
      cases scanInt cs with
      | some x => rfl
      | none =>
        cases scanId cs with
        | some x => rfl
        | none =>
          dsimp only
          split
          · rfl
          · next hx =>
            simp only
            cases scanPun cs <;> rfl

/-- One token of a re-indented text. -/
theorem lexTok_re {s s' : Str} (h : Reindent s s') : SameTok (lexTok s) (lexTok s') := by
  rcases scanSkip_re h with ⟨r, r', e1, e2, e3⟩ | ⟨e1, e2⟩
  · unfold lexTok
    rw [e1, e2]; exact .inl ⟨_, _, _, rfl, rfl, e3⟩
  rw [lexTok_eq s e1, lexTok_eq s' e2]
  have hq : Same (scanQuoted s) (scanQuoted s') := by
    cases h with
    | nil => trivial
    | nl n h => trivial
    | chr c hc h =>
      by_cases hq : c = '"'
      · subst hq; exact scanStr_re h
      · rw [show ∀ u, scanQuoted (c :: u) = none from fun u => by unfold scanQuoted; split <;> first | rfl | (next e => simp at e; exact absurd e.1 hq),
          show ∀ u, scanQuoted (c :: u) = none from fun u => by unfold scanQuoted; split <;> first | rfl | (next e => simp at e; exact absurd e.1 hq)]
        trivial
  refine orTok_re _ hq (orTok_re _ (scanFloat_re h) (orTok_re _ (scanInt_re h) (orTok_re _ (scanId_re h) ?_)))
  have hp := scanPun_re h
  cases h with
  | nil => exact .inr ⟨rfl, rfl⟩
  | nl n h => exact .inl ⟨_, _, _, rfl, rfl, n, _, rfl, h⟩
  | chr c hc h =>
    have key : ∀ u : Str, tailTok (c :: u) = orTok (scanPun (c :: u)) (fun k => some (.p k)) none := by
      intro u
      unfold tailTok
      split
      · next e => simp at e; exact absurd e.1 hc
      · rfl
    rw [key, key]
    exact orTok_re _ hp (.inr ⟨rfl, rfl⟩)

theorem lexN_spaces (n : Nat) (t : Str) : ∀ m, (List.replicate n ' ' ++ t).length ≤ m →
    lexN m (List.replicate n ' ' ++ t) = lex t := by
  induction n with
  | zero => intro m hm; exact lexN_of_lex _ _ hm _ (Nat.le_refl _)
  | succ n ih =>
    intro m hm
    rw [List.replicate_succ, List.cons_append] at hm ⊢
    cases m with
    | zero => simp at hm
    | succ m =>
      rw [lexN, if_pos (.inl rfl)]
      exact ih m (by simp at hm ⊢; omega)

/-- Re-indentation changes neither the tokens nor whether the text can be cut into tokens. -/
theorem lex_reindent {s s' : Str} (h : Reindent s s') : lex s' = lex s := by
  induction hn : s.length using Nat.strongRecOn generalizing s s' with
  | ind n ih =>
  subst hn
  have rest : ∀ {r r' : Str}, Rest r r' → r.length < s.length → ∀ m m', r.length ≤ m → r'.length ≤ m' →
      lexN m' r' = lexN m r := by
    rintro r r' ⟨k, t, rfl, ht⟩ hl m m' hm hm'
    rw [lexN_spaces k t m' hm', lexN_of_lex m r hm r.length (Nat.le_refl _)]
    exact ih r.length hl ht rfl
  have hlen : ∀ {a b : Str}, Reindent a b → (a = [] ↔ b = []) := by
    intro a b hab; cases hab <;> simp
  cases s with
  | nil => rw [(hlen h).mp rfl]
  | cons c s =>
    cases s' with
    | nil => exact absurd ((hlen h).mpr rfl) (by simp)
    | cons c' s' =>
      have hc : c' = c := by simpa using h.head?
      subst hc
      unfold lex
      simp only [List.length_cons, lexN]
      split
      · next hc =>
        have hcn : c' ≠ '\n' := by rcases hc with rfl | rfl <;> decide
        obtain ⟨t, e, ht⟩ := h.tail hcn
        simp only [List.cons.injEq, true_and] at e
        subst e
        exact rest ht.rest (by simp) _ _ (Nat.le_refl _) (Nat.le_refl _)
      · rcases lexTok_re h with ⟨t, r, r', e1, e2, e3⟩ | ⟨e1, e2⟩
        · rw [e1, e2]
          have h1 := lexTok_shrinks _ _ _ e1
          have h2 := lexTok_shrinks _ _ _ e2
          simp only [List.length_cons] at h1 h2
          have := rest e3 (by simpa using h1) s.length s'.length (by omega) (by omega)
          cases t with
          | none => exact this
          | some t => simp only [this]
        · rw [e1, e2]

end Pyv
