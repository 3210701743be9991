import Verif.StmtSpec
import Verif.Props.CodegenProps
import Verif.Props.Reindent
/-
  The tokens of printed statements.
-/
namespace Pyv

/-! ### Indentation -/

theorem Reindent.trans {a b c : Str} (h : Reindent a b) (h2 : Reindent b c) : Reindent a c := by
  induction h generalizing c with
  | nil => exact h2
  | chr d hd _ ih =>
    obtain ⟨t, rfl, ht⟩ := h2.tail hd
    exact .chr d hd (ih ht)
  | @nl n s s' _ ih =>
    have : ∀ (n : Nat) (c : Str), Reindent (List.replicate n ' ' ++ s') c → ∃ t, c = List.replicate n ' ' ++ t ∧ Reindent s' t := by
      intro n
      induction n with
      | zero => intro c h; exact ⟨c, rfl, h⟩
      | succ n ihn =>
        intro c h
        rw [List.replicate_succ, List.cons_append] at h
        obtain ⟨t, rfl, ht⟩ := h.tail (by decide)
        obtain ⟨u, rfl, hu⟩ := ihn t ht
        exact ⟨u, rfl, hu⟩
    cases h2 with
    | chr d hd _ => exact absurd rfl hd
    | @nl m _ c' h2 =>
      obtain ⟨t, rfl, ht⟩ := this n c' h2
      rw [← List.append_assoc, List.replicate_append_replicate]
      exact .nl _ (ih ht)

theorem Reindent.chars {s s' : Str} (h : Reindent s s') : ∀ c ∈ s', c ∈ s ∨ c = ' ' := by
  induction h with
  | nil => simp
  | chr d _ _ ih => intro c hc; simp only [List.mem_cons] at hc ⊢; rcases hc with rfl | hc; exact .inl (.inl rfl); rcases ih c hc with h | h; exact .inl (.inr h); exact .inr h
  | nl n _ ih =>
    intro c hc
    simp only [List.mem_cons, List.mem_append, List.mem_replicate] at hc ⊢
    rcases hc with rfl | ⟨_, rfl⟩ | hc
    · exact .inl (.inl rfl)
    · exact .inr rfl
    · rcases ih c hc with h | h; exact .inl (.inr h); exact .inr h

theorem Reindent.delSpace {s s' : Str} (h : Reindent s s') : Pyv.delSpace s' = Pyv.delSpace s := by
  unfold Pyv.delSpace
  induction h with
  | nil => rfl
  | chr d _ _ ih => simp only [List.filter_cons, ih]
  | nl n _ ih => simp [List.filter_cons, ih]

theorem Reindent.filter {s s' : Str} (p : Char → Bool) (hp : p '\n' = true) (hs : p ' ' = true) (h : Reindent s s') :
    Reindent (s.filter p) (s'.filter p) := by
  induction h with
  | nil => exact .nil
  | chr d hd _ ih =>
    simp only [List.filter_cons]
    split
    · exact .chr d hd ih
    · exact ih
  | nl n _ ih => simp only [List.filter_cons, hp, if_true, List.filter_append, List.filter_replicate, hs]; exact .nl n ih

/-- Only `\n` separates lines. -/
def NoBreak (s : Str) : Prop := ∀ c ∈ s, isBreak c = true → c = '\n'

theorem NoBreak.append {a b : Str} (ha : NoBreak a) (hb : NoBreak b) : NoBreak (a ++ b) := by
  intro c hc; rcases List.mem_append.mp hc with h | h; exact ha c h; exact hb c h

theorem splitLines_re (n : Nat) (s : Str) (h : NoBreak s) : (splitLines s = [] ↔ s = []) ∧ ∀ l ls, splitLines s = l :: ls →
    Reindent s (l ++ ls.flatMap (fun l => if l.all isPySpace then l else blanks n ++ l)) := by
  induction s with
  | nil => exact ⟨by simp [splitLines], fun l ls h => by simp [splitLines] at h⟩
  | cons c s ih =>
    have hs : NoBreak s := fun d hd => h d (by simp [hd])
    obtain ⟨ih1, ih2⟩ := ih hs
    have hcr : c ≠ '\r' := by rintro rfl; have := h '\r' (by simp) rfl; revert this; decide
    have e : splitLines (c :: s) = if isBreak c then [c] :: splitLines s else
        (match splitLines s with | [] => [[c]] | l :: ls => (c :: l) :: ls) := by
      rw [splitLines]
      · cases splitLines s <;> rfl
      · rintro r e; exact absurd e hcr
    rw [e]
    cases hb : isBreak c with
    | true =>
      have := h c (by simp) hb
      subst this
      refine ⟨by simp, fun l ls hl => ?_⟩
      simp only [if_true, List.cons.injEq] at hl
      obtain ⟨rfl, rfl⟩ := hl
      cases hx : splitLines s with
      | nil => rw [ih1.mp hx]; exact .nl 0 .nil
      | cons l ls =>
        have := ih2 l ls hx
        simp only [List.flatMap_cons, List.cons_append, List.nil_append]
        split
        · exact .nl 0 this
        · rw [List.append_assoc]; exact .nl n this
    | false =>
      have hcn : c ≠ '\n' := by rintro rfl; revert hb; decide
      simp only [Bool.false_eq_true, if_false]
      cases hx : splitLines s with
      | nil =>
        refine ⟨by simp, fun l ls hl => ?_⟩
        simp only [List.cons.injEq] at hl
        obtain ⟨rfl, rfl⟩ := hl
        rw [ih1.mp hx]
        exact .chr c hcn .nil
      | cons l ls =>
        refine ⟨by simp, fun l' ls' hl => ?_⟩
        simp only [List.cons.injEq] at hl
        obtain ⟨rfl, rfl⟩ := hl
        exact .chr c hcn (ih2 l ls hx)

/-- `textwrap.indent` re-indents. -/
theorem indentN_re (n : Nat) (s : Str) (h : NoBreak s) : Rest s (indentN n s) := by
  obtain ⟨h1, h2⟩ := splitLines_re n s h
  unfold indentN
  cases hx : splitLines s with
  | nil => rw [h1.mp hx]; exact ⟨0, [], rfl, .nil⟩
  | cons l ls =>
    have := h2 l ls hx
    simp only [List.flatMap_cons]
    split
    · exact ⟨0, _, rfl, this⟩
    · exact ⟨n, _, by rw [List.append_assoc]; rfl, this⟩

theorem Reindent.line {s s' : Str} (h : Rest s s') : Reindent ('\n' :: s) ('\n' :: s') := by
  obtain ⟨n, t, rfl, ht⟩ := h
  exact .nl n ht

theorem cutLine_eq (s : Str) : ∀ l r, cutLine s = (l, some r) → s = l ++ '\n' :: r := by
  induction s with
  | nil => intro l r h; simp [cutLine] at h
  | cons c s ih =>
    intro l r h
    simp only [cutLine] at h
    split at h
    · next e => simp at h; obtain ⟨rfl, rfl⟩ := h; rw [e]; rfl
    · simp only [Prod.mk.injEq] at h
      obtain ⟨rfl, h2⟩ := h
      rw [List.cons_append, ← ih _ r (Prod.ext rfl h2)]

theorem indentAssign_re (s : Str) (h : NoBreak s) : Reindent s (indentAssign s) := by
  unfold indentAssign
  split
  · exact .refl s
  · next l r e =>
    split
    · have := cutLine_eq s l r e
      rw [this] at h
      conv => lhs; rw [this]
      exact (Reindent.refl l).append (Reindent.line (indentN_re _ r (fun c hc => h c (by simp [hc]))))
    · exact .refl s

/-! ### The characters of printed expressions -/

theorem delParen_sub (s : Str) : ∀ c ∈ delParen s, c ∈ s := by
  intro c hc
  unfold delParen at hc
  split at hc
  · exact List.mem_of_mem_drop ((List.dropLast_sublist _).subset hc)
  · exact hc

/-- The characters the generator prints by itself. -/
def fixedChars : List Char := "()[]{}?:, .\n\"$+-*/%~|&^!<>=".toList

theorem leavess_iff (P : Str → Prop) (es : List Ex) : Ex.Leavess P es ↔ ∀ e ∈ es, e.Leaves P := by
  induction es with
  | nil => simp [Ex.Leavess]
  | cons e es ih => simp [Ex.Leavess, ih]

theorem commaSep_chars (ss : List Str) (P : Char → Prop) (hf : ∀ c ∈ fixedChars, P c) (h : ∀ s ∈ ss, ∀ c ∈ s, P c) :
    ∀ c ∈ commaSep ss, P c := by
  induction ss with
  | nil => simp [commaSep]
  | cons s ss ih =>
    cases ss with
    | nil => simpa [commaSep] using h
    | cons t r =>
      intro c hc
      simp only [commaSep, List.mem_append] at hc
      rcases hc with (hc | hc) | hc
      · exact h s (by simp) c hc
      · refine hf c ?_; revert hc; revert c; decide
      · exact ih (fun s hs => h s (by simp [hs])) c hc

/-- Every character of the printed text belongs to a name, number or string or is one of the generator's own. -/
theorem code_chars (P : Char → Prop) (hf : ∀ c ∈ fixedChars, P c) (e : Ex) (h : e.Leaves (fun s => ∀ c ∈ s, P c)) :
    ∀ c ∈ e.code, P c := by
  have hesc : ∀ n : Str, (∀ c ∈ n, P c) → ∀ c ∈ escape n, P c := by
    intro n hn c hc
    unfold escape at hc
    split at hc
    · rcases List.mem_append.mp hc with h | h
      · exact hn c h
      · simp at h; subst h; exact hf _ (by decide)
    · exact hn c hc
  have hmark : ∀ o : Op, ∀ c ∈ o.mark, P c := by
    intro o c hc; refine hf c ?_; revert hc; revert c; cases o <;> decide
  have hds : ∀ s : Str, (∀ c ∈ s, P c) → ∀ c ∈ delSpace s, P c := fun s hs c hc => hs c (List.mem_of_mem_filter hc)
  have hdp : ∀ s : Str, (∀ c ∈ s, P c) → ∀ c ∈ delParen s, P c := fun s hs c hc => hs c (delParen_sub s c hc)
  have happ : ∀ a b : Str, (∀ c ∈ a, P c) → (∀ c ∈ b, P c) → ∀ c ∈ a ++ b, P c := by
    intro a b ha hb c hc; rcases List.mem_append.mp hc with h | h; exact ha c h; exact hb c h
  have hlit : ∀ s : Str, (∀ c ∈ s, c ∈ fixedChars) → ∀ c ∈ s, P c := fun s hs c hc => hf c (hs c hc)
  have hone : ∀ (d : Char) (s : Str), d ∈ fixedChars → (∀ c ∈ s, P c) → ∀ c ∈ d :: s, P c := by
    intro d s hd hs c hc; rcases List.mem_cons.mp hc with rfl | h; exact hf _ hd; exact hs c h
  induction e using Ex.ind with
  | ident sc n =>
    simp only [Ex.Leaves] at h
    simp only [Ex.code]
    refine happ _ _ ?_ (hesc n (h n (by simp)))
    intro c hc
    obtain ⟨l, hl, hc⟩ := List.mem_flatMap.mp hc
    exact happ _ _ (hesc l (h l (by simp [hl]))) (hlit _ (by decide)) c hc
  | intc s => exact h
  | fltc s => exact h
  | strc s => exact happ _ _ (hone _ _ (by decide) h) (hlit _ (by decide))
  | uplus e ih => exact happ _ _ (hone _ _ (by decide) (ih h)) (hlit _ (by decide))
  | un o e ih =>
    simp only [Ex.code]
    exact happ _ _ (happ _ _ (hone _ _ (by decide) (hmark o)) (ih h)) (hlit _ (by decide))
  | bin o a b iha ihb =>
    simp only [Ex.Leaves] at h
    have ha := iha h.1
    have hb := ihb h.2
    simp only [Ex.code]
    split
    · exact happ _ _ ha hb
    · refine happ _ _ (happ _ _ (happ _ _ (happ _ _ (happ _ _ (hone _ _ (by decide) ?_) (hlit _ (by decide))) (hmark o)) (hlit _ (by decide))) ?_) (hlit _ (by decide))
      · split; exact hdp _ ha; exact ha
      · split; exact hdp _ hb; exact hb
  | cond c t f ihc iht ihf =>
    simp only [Ex.Leaves] at h
    simp only [Ex.code]
    refine happ _ _ (happ _ _ (happ _ _ (happ _ _ (happ _ _ (happ _ _ (hlit _ (by decide)) (hdp _ (ihc h.1))) (hlit _ (by decide)))
      (hdp _ (iht h.2.1))) (hlit _ (by decide))) (happ _ _ ?_ (hdp _ (ihf h.2.2)))) (hlit _ (by decide))
    split
    · exact hlit _ (by decide)
    · simp
  | psel v m l ihv ihm ihl =>
    simp only [Ex.Leaves] at h
    simp only [Ex.code]
    exact happ _ _ (happ _ _ (happ _ _ (happ _ _ (happ _ _ (ihv h.1) (hlit _ (by decide))) (hds _ (hdp _ (ihm h.2.1)))) (hlit _ (by decide)))
      (hds _ (hdp _ (ihl h.2.2)))) (hlit _ (by decide))
  | ptr v p ihv ihp =>
    simp only [Ex.Leaves] at h
    simp only [Ex.code]
    exact happ _ _ (happ _ _ (happ _ _ (ihv h.1) (hlit _ (by decide))) (hdp _ (ihp h.2))) (hlit _ (by decide))
  | concat es ih =>
    simp only [Ex.Leaves, leavess_iff] at h
    simp only [Ex.code]
    refine happ _ _ (happ _ _ (hlit _ (by decide)) (commaSep_chars _ P hf ?_)) (hlit _ (by decide))
    intro s hs
    rw [codes_eq_map, List.map_map] at hs
    obtain ⟨e, he, rfl⟩ := List.mem_map.mp hs
    exact hdp _ (ih e he (h e he))
  | rep t v iht ihv =>
    simp only [Ex.Leaves] at h
    simp only [Ex.code]
    exact happ _ _ (happ _ _ (happ _ _ (hlit _ (by decide)) (hdp _ (iht h.1))) (hdp _ (ihv h.2))) (hlit _ (by decide))
  | call f es ih =>
    simp only [Ex.Leaves, leavess_iff] at h
    simp only [Ex.code]
    refine happ _ _ (happ _ _ (happ _ _ (hesc f h.1) (hlit _ (by decide))) (commaSep_chars _ P hf ?_)) (hlit _ (by decide))
    intro s hs
    rw [codes_eq_map] at hs
    obtain ⟨e, he, rfl⟩ := List.mem_map.mp hs
    exact ih e he (h.2 e he)
  | sys f es ih =>
    simp only [Ex.Leaves, leavess_iff] at h
    simp only [Ex.code]
    refine happ _ _ (happ _ _ (happ _ _ (hone _ _ (by decide) (hesc f h.1)) ?_) (commaSep_chars _ P hf ?_)) ?_
    · split; exact hlit _ (by decide); simp
    · intro s hs
      rw [codes_eq_map] at hs
      obtain ⟨e, he, rfl⟩ := List.mem_map.mp hs
      exact ih e he (h.2 e he)
    · split; exact hlit _ (by decide); simp

theorem Ex.Leaves.mono {P Q : Str → Prop} (hPQ : ∀ s, P s → Q s) (e : Ex) (h : e.Leaves P) : e.Leaves Q := by
  induction e using Ex.ind with
  | ident sc n => exact fun l hl => hPQ l (h l hl)
  | intc s => exact hPQ _ h
  | fltc s => exact hPQ _ h
  | strc s => exact hPQ _ h
  | uplus e ih => exact ih h
  | un o e ih => exact ih h
  | bin o a b iha ihb => exact ⟨iha h.1, ihb h.2⟩
  | cond c t f ihc iht ihf => exact ⟨ihc h.1, iht h.2.1, ihf h.2.2⟩
  | psel v m l ihv ihm ihl => exact ⟨ihv h.1, ihm h.2.1, ihl h.2.2⟩
  | ptr v p ihv ihp => exact ⟨ihv h.1, ihp h.2⟩
  | concat es ih => simp only [Ex.Leaves, leavess_iff] at h ⊢; exact fun e he => ih e he (h e he)
  | rep t v iht ihv => exact ⟨iht h.1, ihv h.2⟩
  | call f es ih => simp only [Ex.Leaves, leavess_iff] at h ⊢; exact ⟨hPQ _ h.1, fun e he => ih e he (h.2 e he)⟩
  | sys f es ih => simp only [Ex.Leaves, leavess_iff] at h ⊢; exact ⟨hPQ _ h.1, fun e he => ih e he (h.2 e he)⟩

theorem Ex.Printable.noBreak {e : Ex} (h : e.Printable) : NoBreak e.rcode := by
  intro c hc
  refine code_chars (fun c => isBreak c = true → c = '\n') (by decide) e ?_ c (delParen_sub _ c hc)
  exact Ex.Leaves.mono (fun s hs c hc hb => by rw [hs c hc] at hb; simp at hb) e h.2

theorem Leaves.noSemi {e : Ex} (h : e.Leaves (';' ∉ ·)) : ';' ∉ e.rcode := by
  intro hc
  refine code_chars (fun c => c ≠ ';') (by decide) e ?_ ';' (delParen_sub _ _ hc) rfl
  exact Ex.Leaves.mono (fun s hs c hc => by rintro rfl; exact hs hc) e h

/-! ### The tokens of printed statements -/

/-- The tokens of the conditions of a case item. -/
def condToks : Option (List Ex) → List Tok
  | none => [.kw "default".toList]
  | some cs => commaT (cs.map Ex.itoks)

mutual
/-- The tokens of a printed statement. -/
def Stmt.toks : Stmt → List Tok
  | .skip => []
  | .nb l r => l.itoks ++ .p .le :: (r.itoks ++ [.p .semicolon])
  | .ba l r => l.itoks ++ .p .equals :: (r.itoks ++ [.p .semicolon])
  | .ifs c t f =>
    .kw "if".toList :: .p .lparen :: (c.itoks ++ .p .rparen :: (t.toks ++
      (if f.isNull then [] else .kw "else".toList :: f.toks)))
  | .cases k comp conds bodies =>
    .kw (k.word.getD []) :: .p .lparen :: (comp.itoks ++ .p .rparen :: (Stmt.itemToks conds bodies ++ [.kw "endcase".toList]))
  | .block name ss =>
    .kw "begin".toList :: ((match name with | none => [] | some n => [.p .colon, .id n]) ++ (Stmt.toksL ss ++ [.kw "end".toList]))
  | .fors pl pr c ql qr body =>
    .kw "for".toList :: .p .lparen :: (pl.itoks ++ .p .equals :: (pr.itoks ++ .p .semicolon :: (c.itoks ++ .p .semicolon ::
      (ql.itoks ++ .p .equals :: (qr.itoks ++ .p .rparen :: body.toks)))))
  | .whiles c body => .kw "while".toList :: .p .lparen :: (c.itoks ++ .p .rparen :: body.toks)
/-- `Stmt.toks` on lists. -/
def Stmt.toksL : List Stmt → List Tok
  | [] => []
  | s :: ss => s.toks ++ Stmt.toksL ss
/-- The tokens of case items. -/
def Stmt.itemToks : List (Option (List Ex)) → List Stmt → List Tok
  | c :: cs, s :: ss => condToks c ++ .p .colon :: (s.toks ++ Stmt.itemToks cs ss)
  | _, _ => []
end

theorem reserved_letters : ∀ w ∈ reservedWords, ∃ c t, w = c :: t ∧ isIdStart c = true ∧ ∀ x ∈ t, isIdChar x = true := by
  have : ∀ w ∈ reservedWords, (match w with | [] => false | c :: t => isIdStart c && t.all isIdChar) = true := by decide
  intro w hw
  have := this w hw
  cases w with
  | nil => simp at this
  | cons c t =>
    simp only [Bool.and_eq_true, List.all_eq_true] at this
    exact ⟨c, t, rfl, this.1, this.2⟩

theorem Lx.kw {w : Str} (hw : w ∈ reservedWords) {r : Str} {ts : List Tok}
    (hr : ∀ c, r.head? = some c → isIdChar c = false) (hl : Lx r ts) : Lx (w ++ r) (.kw w :: ts) := by
  obtain ⟨c, t, rfl, hc, ht⟩ := reserved_letters w hw
  have hs := takeWhile_stop isIdChar t r ht hr
  have hne := isIdStart_ne hc
  have h4 : scanId (c :: (t ++ r)) = some (c :: t, r) := by
    simp only [scanId, hc, if_true, hs.1, hs.2]
  rw [List.cons_append]
  refine Lx.tok (by rintro (h | h); exact hne.2.2.2.2.2.2.1 h; exact hne.2.2.2.2.2.2.2.1 h) ?_ hl
  simp only [lexTok, scanSkip_none c (t ++ r) hne.1 hne.2.1, scanQuoted_none (c :: (t ++ r)) (by simp [hne.2.2.1]),
    scanFloat_none' c (t ++ r) hne.2.2.2.2.1 hne.2.2.2.1, scanInt_none c (t ++ r) hne.2.2.2.2.1 hne.2.2.2.2.2.1, h4, if_pos hw]

theorem Lx.sp1 {r : Str} {ts : List Tok} (h : Lx r ts) : Lx (' ' :: r) ts := Lx.sp (.inl rfl) h

theorem Printable.lexP {e : Ex} (h : e.WF) : LexP e.rcode e.itoks := by
  have := code_lexP e true h (by simp)
  rwa [sq_true] at this

theorem Tight.lexP {e : Ex} (h : e.WF) (ht : e.Tight) : LexP (delSpace e.rcode) e.itoks := by
  have := code_lexP e false h (fun _ => ht)
  rwa [sq_false] at this

theorem rcode_ne_eq {e : Ex} (h : e.WF) : ∀ c, e.rcode.head? = some c → c ≠ '=' := by
  obtain ⟨c, t, e1, e2, e3, e4⟩ := rcode_head e h
  rw [e1]
  intro d hd
  simp only [List.head?_cons, Option.some.injEq] at hd
  subst hd
  rintro rfl
  cases hl : e.leadUn with
  | none => have := e3 hl; revert this; simp [OpStart]; decide
  | some u =>
    have := e4 u hl
    revert this
    cases u <;> simp [Op.mark, Op.unary]

theorem dspace_head {s : Str} (hs : s.head? ≠ some ' ') : (delSpace s).head? = s.head? := by
  cases s with
  | nil => rfl
  | cons c s =>
    have : c ≠ ' ' := by simpa using hs
    simp [delSpace, List.filter_cons, this]

theorem drcode_ne_eq {e : Ex} (h : e.WF) : ∀ c, (delSpace e.rcode).head? = some c → c ≠ '=' := by
  obtain ⟨c, t, e1, e2, _⟩ := rcode_head e h
  rw [dspace_head (by rw [e1]; simpa using e2)]
  exact rcode_ne_eq h

theorem rcode_ne_nil {e : Ex} (h : e.WF) : e.rcode ≠ [] := by
  obtain ⟨c, t, e1, _⟩ := rcode_head e h
  rw [e1]; simp

theorem delim_head {s : Str} {c : Char} {t : Str} (h : s = c :: t) (h2 : isIdChar c = false ∧ c ≠ '\'' ∧ c ≠ '.' ∧ c ≠ '?') : Delim s := by
  rw [h]; exact Delim.cons t h2

theorem head_append {s t : Str} (h : s ≠ []) : (s ++ t).head? = s.head? := by
  cases s with
  | nil => exact absurd rfl h
  | cons c s => rfl

theorem Lx.eqs {r : Str} {ts : List Tok} (h : ∀ c, r.head? = some c → c ≠ '=') (hl : Lx r ts) :
    Lx ('=' :: r) (.p .equals :: ts) := by
  have := Lx.pun .equals (r := r) (ts := ts) (fun c hc => by show c ∉ ['=']; simpa using h c hc) hl
  have e : Pun.equals.text = ['='] := rfl
  rw [e] at this
  exact this

theorem Lx.les {r : Str} {ts : List Tok} (hl : Lx r ts) : Lx ('<' :: '=' :: r) (.p .le :: ts) := by
  have := Lx.pun .le (r := r) (ts := ts) (fun c _ => by show c ∉ []; exact List.not_mem_nil) hl
  have e : Pun.le.text = ['<', '='] := rfl
  rw [e] at this
  exact this

theorem getLast_app (a : Str) {b : Str} {c : Char} (h : b.getLast? = some c) : (a ++ b).getLast? = some c := by
  rw [List.getLast?_append, h]; rfl

/-- `l = r` without spaces. -/
theorem tight_asg {l r : Ex} (hl : l.WF ∧ l.Tight) (hr : r.WF ∧ r.Tight) :
    LexP (delSpace l.rcode ++ '=' :: delSpace r.rcode) (l.itoks ++ .p .equals :: r.itoks) := by
  intro rest ts hd hlx
  simp only [List.append_assoc, List.cons_append]
  refine (Tight.lexP hl.1 hl.2) ('=' :: (delSpace r.rcode ++ rest)) (.p .equals :: (r.itoks ++ ts)) (Delim.cons _ (by decide)) ?_
  refine Lx.eqs (r := delSpace r.rcode ++ rest) ?_ (Tight.lexP hr.1 hr.2 _ _ hd hlx)
  intro c hc
  have : delSpace r.rcode ≠ [] := by
    obtain ⟨c, t, e1, e2, _⟩ := rcode_head r hr.1
    rw [e1]; simp [delSpace, List.filter_cons, e2]
  rw [head_append this] at hc
  exact drcode_ne_eq hr.1 c hc

/-- `l <= r;`, `l = r;` -/
theorem asg_lexP (nb : Bool) {l r : Ex} (hl : l.WF) (hr : r.WF) :
    LexP (l.rcode ++ (if nb then " <= ".toList else " = ".toList) ++ r.rcode ++ ";".toList)
      (l.itoks ++ .p (if nb then .le else .equals) :: (r.itoks ++ [.p .semicolon])) := by
  intro rest ts hd hlx
  have hend : Lx (';' :: rest) (.p .semicolon :: ts) := Lx.ch .semicolon ';' rfl rfl hlx
  have h2 := Printable.lexP hr (';' :: rest) _ (Delim.cons _ (by decide)) hend
  cases nb with
  | true =>
    have e1 : (if true = true then " <= ".toList else " = ".toList) = [' ', '<', '=', ' '] := rfl
    rw [e1, show ";".toList = [';'] from rfl]
    simp only [List.append_assoc, List.cons_append, List.nil_append, if_true]
    refine Printable.lexP hl (' ' :: _) _ (Delim.cons _ (by decide)) (Lx.sp1 ?_)
    exact Lx.les (Lx.sp1 h2)
  | false =>
    have e1 : (if false = true then " <= ".toList else " = ".toList) = [' ', '=', ' '] := rfl
    rw [e1, show ";".toList = [';'] from rfl]
    simp only [List.append_assoc, List.cons_append, List.nil_append, Bool.false_eq_true, if_false]
    refine Printable.lexP hl (' ' :: _) _ (Delim.cons _ (by decide)) (Lx.sp1 ?_)
    refine Lx.eqs (fun c hc => ?_) (Lx.sp1 h2)
    simp at hc; subst hc; decide

theorem noBreak_lit (s : Str) (h : ∀ c ∈ s, isBreak c = true → c = '\n') : NoBreak s := h

theorem asg_noBreak (nb : Bool) {l r : Ex} (hl : l.Printable) (hr : r.Printable) :
    NoBreak (l.rcode ++ (if nb then " <= ".toList else " = ".toList) ++ r.rcode ++ ";".toList) := by
  refine ((hl.noBreak.append ?_).append hr.noBreak).append ?_
  · cases nb <;> (unfold NoBreak; decide)
  · unfold NoBreak; decide

theorem Reindent.noBreak {s s' : Str} (h : Reindent s s') (hs : NoBreak s) : NoBreak s' := by
  intro c hc hb
  rcases h.chars c hc with h | rfl
  · exact hs c h hb
  · revert hb; decide

theorem Rest.noBreak {s s' : Str} (h : Rest s s') (hs : NoBreak s) : NoBreak s' := by
  obtain ⟨n, t, rfl, ht⟩ := h
  refine NoBreak.append ?_ (ht.noBreak hs)
  intro c hc hb
  rw [(List.mem_replicate.mp hc).2] at hb
  exact absurd hb (by decide)

theorem delSpace_append (a b : Str) : delSpace (a ++ b) = delSpace a ++ delSpace b := List.filter_append ..

/-- The assignments of a for loop. -/
theorem for_asg {l r : Ex} (hl : l.Printable ∧ l.Tight) (hr : r.Printable ∧ r.Tight) :
    delSpace (assignCode false l r) = delSpace l.rcode ++ '=' :: (delSpace r.rcode ++ [';']) := by
  unfold assignCode
  rw [(indentAssign_re _ (asg_noBreak false hl.1 hr.1)).delSpace]
  simp only [Bool.false_eq_true, if_false, delSpace_append, List.append_assoc]
  rfl

theorem for_post {l r : Ex} (hl : l.Printable ∧ l.Tight) (hr : r.Printable ∧ r.Tight) (hls : l.Leaves (';' ∉ ·))
    (hrs : r.Leaves (';' ∉ ·)) :
    delSpace ((assignCode false l r).filter (fun c => c != ';')) = delSpace l.rcode ++ '=' :: delSpace r.rcode := by
  unfold assignCode
  have h := (indentAssign_re _ (asg_noBreak false hl.1 hr.1)).filter (fun c => c != ';') (by decide) (by decide)
  rw [h.delSpace]
  have e : ∀ s : Str, ';' ∉ s → s.filter (fun c => c != ';') = s := by
    intro s hs
    rw [List.filter_eq_self]
    intro c hc
    simp only [bne_iff_ne, ne_eq]
    rintro rfl; exact hs hc
  simp only [Bool.false_eq_true, if_false, List.filter_append, e _ (Leaves.noSemi hls), e _ (Leaves.noSemi hrs), delSpace_append,
    List.append_assoc]
  have e2 : delSpace (";".toList.filter (fun c => c != ';')) = [] := rfl
  rw [e2, List.append_nil]
  rfl

theorem conds_lexP (c : Option (List Ex)) (h : CondsOK c) (rest : Str) (ts : List Tok) (hd : Delim rest) (hl : Lx rest ts) :
    Lx (caseCondCode c ++ rest) (condToks c ++ ts) := by
  cases c with
  | none => exact Lx.kw (by decide) hd.id hl
  | some cs =>
    simp only [caseCondCode, condToks]
    have := comma_lexP true (cs.map Ex.rcode) (cs.map Ex.itoks) ?_
    · rw [sq_true] at this
      exact this rest ts hd hl
    · simp only [sq_true]
      have h2 := h.2
      clear h
      induction cs with
      | nil => exact .nil
      | cons e es ih =>
        exact .cons (Printable.lexP (h2 e (by simp)).1) (ih (fun e he => h2 e (by simp [he])))

theorem conds_noBreak (c : Option (List Ex)) (h : CondsOK c) : NoBreak (caseCondCode c) := by
  cases c with
  | none => unfold NoBreak caseCondCode; decide
  | some cs =>
    refine commaSep_chars _ (fun c => isBreak c = true → c = '\n') (by decide) ?_
    intro s hs
    obtain ⟨e, he, rfl⟩ := List.mem_map.mp hs
    exact (h.2 e he).noBreak

theorem swfs_iff (ss : List Stmt) : Stmt.WFs ss ↔ ∀ s ∈ ss, s.WF := by
  induction ss with
  | nil => simp [Stmt.WFs]
  | cons s ss ih => simp [Stmt.WFs, ih]

theorem WF.notSkip {s : Stmt} (h : s.WF) : s.isNull = false := by
  cases s <;> first | rfl | exact h.elim

/-- The printed text of a statement has its tokens, wherever the lines are indented. -/
def Prints (s : Stmt) : Prop := NoBreak s.code ∧ ∃ raw, Reindent raw s.code ∧ LexP raw s.toks

theorem Reindent.last {s s' : Str} (h : Reindent s s') (c : Char) (hc : c ≠ '\n') : s.getLast? = some c → s'.getLast? = some c := by
  induction h with
  | nil => simp
  | @chr d s s' hd h ih =>
    intro hl
    cases h with
    | nil => exact hl
    | chr e he h => rw [List.getLast?_cons_cons] at hl ⊢; exact ih hl
    | nl n h => rw [List.getLast?_cons_cons] at hl ⊢; exact ih hl
  | @nl n s s' h ih =>
    intro hl
    cases s with
    | nil => simp at hl; exact absurd hl.symm hc
    | cons e s =>
      rw [List.getLast?_cons_cons] at hl
      have := ih hl
      rw [show ('\n' :: (List.replicate n ' ' ++ s')) = ('\n' :: List.replicate n ' ') ++ s' from rfl]
      rw [List.getLast?_append, this]
      rfl

/-- A statement that does not end with an if without else ends with `;`, `end` or `endcase`. -/
theorem code_last (s : Stmt) : s.WF → s.openIf = false → s.code.getLast? = some ';' ∨ s.code.getLast? = some 'd' ∨ s.code.getLast? = some 'e' := by
  have hasg : ∀ (nb : Bool) (l r : Ex), l.Printable → r.Printable → (assignCode nb l r).getLast? = some ';' := by
    intro nb l r hl hr
    refine (indentAssign_re _ (asg_noBreak nb hl hr)).last ';' (by decide) ?_
    rw [List.getLast?_append]; simp
  induction s using Stmt.ind with
  | skip => intro h; exact h.elim
  | nb l r => intro h _; simp only [Stmt.WF] at h; exact .inl (hasg true l r h.1 h.2.2)
  | ba l r => intro h _; simp only [Stmt.WF] at h; exact .inl (hasg false l r h.1 h.2.2)
  | ifs c t f _ ihf =>
    intro h ho
    simp only [Stmt.WF] at h
    simp only [Stmt.openIf, Bool.or_eq_false_iff] at ho
    rcases h.2.2 with ⟨rfl, _⟩ | hf
    · simp [Stmt.isNull] at ho
    · have := ihf hf.1 ho.2
      have hne : f.code ≠ [] := by intro e; rw [e] at this; simp at this
      have e : ∃ x, (Stmt.ifs c t f).code = x ++ f.code := by
        rw [Stmt.code, ifCode, if_pos hne]
        exact ⟨_, (List.append_assoc ..).symm⟩
      obtain ⟨x, e⟩ := e
      rw [e]
      rcases this with h | h | h
      · exact .inl (getLast_app x h)
      · exact .inr (.inl (getLast_app x h))
      · exact .inr (.inr (getLast_app x h))
  | cases k c cs ss _ =>
    intro h _
    simp only [Stmt.WF] at h
    simp only [Stmt.code]
    rcases h.1 with rfl | rfl <;> (simp only [CaseKind.word, caseCode]; exact .inr (.inr (getLast_app _ rfl)))
  | block n ss _ =>
    intro h _
    rw [Stmt.code]
    unfold blockCode
    exact .inr (.inl (getLast_app _ rfl))
  | fors a b c d e s ih =>
    intro h ho
    simp only [Stmt.WF] at h
    simp only [Stmt.openIf] at ho
    have := ih h.2.2.2.2.2 ho
    rw [Stmt.code]
    unfold forCode
    rcases this with h | h | h
    · exact .inl (getLast_app _ h)
    · exact .inr (.inl (getLast_app _ h))
    · exact .inr (.inr (getLast_app _ h))
  | whiles c s ih =>
    intro h ho
    simp only [Stmt.WF] at h
    simp only [Stmt.openIf] at ho
    have := ih h.2 ho
    rw [Stmt.code]
    unfold whileCode
    rcases this with h | h | h
    · exact .inl (getLast_app _ h)
    · exact .inr (.inl (getLast_app _ h))
    · exact .inr (.inr (getLast_app _ h))

end Pyv
