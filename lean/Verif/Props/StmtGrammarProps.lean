import Verif.Props.GrammarSound
import Verif.Props.StmtRound
import Verif.StmtGrammar
/-
  C83, one direction: what the statement grammar derives is read by the parser.
-/
namespace Pyv

/-- The first token of an expression is no keyword. -/
theorem derives_first {ph : Phrase} {ts : List Tok} (h : Derives ph ts) :
    match ph with
    | .expr _ _ => ∃ t r, ts = t :: r ∧ ∀ w, t ≠ .kw w
    | .base _ => ∃ n r, ts = .id n :: r
    | _ => True := by
  induction h with
  | name sc n => cases sc with
    | nil => exact ⟨_, _, rfl⟩
    | cons a sc => exact ⟨_, _, rfl⟩
  | index _ _ ih _ => obtain ⟨n, r, e⟩ := ih; exact ⟨n, _, by rw [e]; rfl⟩
  | operand _ ih => obtain ⟨n, r, e⟩ := ih; exact ⟨_, _, e, by simp⟩
  | part _ _ _ ih => obtain ⟨n, r, e⟩ := ih; exact ⟨_, _, by rw [e]; rfl, by simp⟩
  | partUp _ _ _ ih => obtain ⟨n, r, e⟩ := ih; exact ⟨_, _, by rw [e]; rfl, by simp⟩
  | partDown _ _ _ ih => obtain ⟨n, r, e⟩ := ih; exact ⟨_, _, by rw [e]; rfl, by simp⟩
  | bin _ _ _ ih _ => obtain ⟨t, r, e, ht⟩ := ih; exact ⟨t, _, by rw [e]; rfl, ht⟩
  | cond _ _ _ ih _ _ => obtain ⟨t, r, e, ht⟩ := ih; exact ⟨t, _, by rw [e]; rfl, ht⟩
  | stronger _ _ ih => exact ih
  | item | items | noArg | arg | args => trivial
  | _ => exact ⟨_, _, rfl, by simp⟩

/-- A statement begins with a name, a brace or one of its words. -/
theorem sderives_first {ph : SPhrase} {ts : List Tok} (h : SDerives ph ts) :
    match ph with
    | .left _ => ∃ t r, ts = t :: r ∧ ((∃ n, t = .id n) ∨ t = .p .lbrace)
    | .stmt _ _ => ∃ t r, ts = t :: r ∧ t ≠ kwt "end" ∧ t ≠ kwt "else" ∧ t ≠ .p .colon
    | .alts _ => ∃ t r, ts = t :: r ∧ ∀ w, t ≠ .kw w
    | .stmts _ => ts = [] ∨ ∃ t r, ts = t :: r ∧ t ≠ .p .colon
    | .items _ _ => ts = [] ∨ ∃ t r, ts = t :: r ∧ t ≠ kwt "else"
    | _ => True := by
  have hasg : ∀ {ts ws : List Tok}, (∃ t r, ts = t :: r ∧ ((∃ n, t = .id n) ∨ t = .p .lbrace)) →
      ∃ t r, ts ++ ws = t :: r ∧ t ≠ kwt "end" ∧ t ≠ kwt "else" ∧ t ≠ .p .colon := by
    rintro ts ws ⟨t, r, rfl, ⟨n, rfl⟩ | rfl⟩
    · exact ⟨_, _, rfl, by simp [kwt]⟩
    · exact ⟨_, _, rfl, by simp [kwt]⟩
  induction h with
  | base h => obtain ⟨n, r, e⟩ := derives_first h; exact ⟨_, r, e, .inl ⟨n, rfl⟩⟩
  | part h => obtain ⟨n, r, e⟩ := derives_first h; exact ⟨_, _, by rw [e]; rfl, .inl ⟨n, rfl⟩⟩
  | partUp h => obtain ⟨n, r, e⟩ := derives_first h; exact ⟨_, _, by rw [e]; rfl, .inl ⟨n, rfl⟩⟩
  | partDown h => obtain ⟨n, r, e⟩ := derives_first h; exact ⟨_, _, by rw [e]; rfl, .inl ⟨n, rfl⟩⟩
  | concat => exact ⟨_, _, rfl, .inr rfl⟩
  | blocking _ _ ih => exact hasg ih
  | nonblocking _ _ ih => exact hasg ih
  | alt h => exact derives_first h
  | alts _ _ ih => obtain ⟨t, r, e, ht⟩ := ih; exact ⟨t, _, by rw [e]; rfl, ht⟩
  | noItem => exact .inl rfl
  | item _ _ _ ih ih2 _ =>
    rcases ih with rfl | ⟨t, r, rfl, ht⟩
    · obtain ⟨t, r, rfl, ht⟩ := ih2
      exact .inr ⟨t, _, rfl, ht _⟩
    · exact .inr ⟨t, _, rfl, ht⟩
  | default _ _ ih _ =>
    rcases ih with rfl | ⟨t, r, rfl, ht⟩
    · exact .inr ⟨_, _, rfl, by simp [kwt]⟩
    · exact .inr ⟨t, _, rfl, ht⟩
  | @case k _ _ _ _ _ =>
    cases k <;> exact ⟨_, _, rfl, by simp [kwt], by simp [kwt], by simp⟩
  | left | lefts => trivial
  | noStmt => exact .inl rfl
  | stmts _ _ ih ih2 =>
    rcases ih with rfl | ⟨t, r, rfl, ht⟩
    · obtain ⟨t, r, rfl, _, _, ht⟩ := ih2
      exact .inr ⟨t, _, rfl, ht⟩
    · exact .inr ⟨t, _, rfl, ht⟩
  | _ => exact ⟨_, _, rfl, by simp [kwt], by simp [kwt], by simp⟩

theorem follow_ends {t : Tok} (h : t.ends = true) (ts : List Tok) : Follow (t :: ts) ∧ Tok.infix? (some t) = none := by
  have hp : ∃ k, t = .p k ∧ isTerm (.tok (.p k)) = true := by
    cases t with
    | p k => exact ⟨k, rfl, h⟩
    | _ => simp [Tok.ends, isTerm] at h
  obtain ⟨k, rfl, hk⟩ := hp
  cases k <;> first | (simp [isTerm] at hk; done) | exact ⟨by simp [Follow], rfl⟩

/-- An expression of the grammar up to a terminator. -/
theorem derives_st {e : Ex} {ts : List Tok} (h : Derives (.expr 0 e) ts) {t : Tok} (ht : t.ends = true) (rest : List Tok) :
    St [] (ts ++ t :: rest) [.ex e] (t :: rest) :=
  derives_parsed h [] _ rfl (Or.inr (Or.inl rfl)) (follow_ends ht rest).1
    (fun sl hsl => by rw [List.head?_cons, (follow_ends ht rest).2] at hsl; simp at hsl)

theorem sread_ex {e : Ex} {ts : List Tok} (h : Derives (.expr 0 e) ts) {o : List OSym} (ho : ExTop o) {t : Tok}
    (ht : t.ends = true) (rest : List Tok) : SSt o [] (ts ++ t :: rest) o [.ex e] (t :: rest) :=
  lift_ex ho (derives_st h ht rest)

theorem follow_endsLeft {t : Tok} (h : t.endsLeft = true) (ts : List Tok) : Follow (t :: ts) := by
  rcases endsLeft_cases h with rfl | rfl | rfl | rfl <;> simp [Follow]

/-- A part select of the grammar on the left. -/
theorem sread_psel {v m l : Ex} {ts : List Tok} (h : Derives (.expr 12 (.psel v m l)) ts) (hid : ∃ n r, ts = .id n :: r)
    (o : List OSym) {t : Tok} (ht : t.endsLeft = true) (rest : List Tok) :
    SSt (.lhs :: o) [] (ts ++ t :: rest) (.lv (.psel v m l) :: o) [] (t :: rest) := by
  have := derives_parsed h [] (t :: rest) rfl (Or.inr (Or.inl rfl)) (follow_endsLeft ht rest)
    (fun sl hsl => by have := infix_le hsl; omega)
  obtain ⟨n, r, e⟩ := hid
  exact (lift_lhs (l := .psel v m l) rfl (.inr ⟨n, by rw [e]; rfl⟩) this).trans (.one (lv_of_left rfl ht rest))

/-- The parser gets to a state with no action that is not its end. -/
def SStuck (o : List OSym) (i : List Sym) (t : List Tok) : Prop :=
  ∃ x y o1 i1 t1, SSt o i t (x :: y :: o1) i1 t1 ∧ sstep (x :: y :: o1) i1 t1 = none

/-- The parser gets from the first state to the second, or it gets stuck. -/
def SRes (ok : Bool) (o : List OSym) (i : List Sym) (t : List Tok) (o1 : List OSym) (i1 : List Sym) (t1 : List Tok) : Prop :=
  if ok then SSt o i t o1 i1 t1 else SStuck o i t

theorem SRes.done {o i t o1 i1 t1} (h : SSt o i t o1 i1 t1) : SRes true o i t o1 i1 t1 := h
theorem SRes.pre {ok o i t o1 i1 t1 o2 i2 t2} (h : SSt o i t o1 i1 t1) (h' : SRes ok o1 i1 t1 o2 i2 t2) : SRes ok o i t o2 i2 t2 := by
  cases ok with
  | true => exact SSt.trans h h'
  | false =>
    obtain ⟨x, y, o3, i3, t3, hs, hn⟩ := h'
    exact ⟨x, y, o3, i3, t3, h.trans hs, hn⟩
theorem SRes.first {ok o i t o1 i1 t1 o2 i2 t2} (h : sstep o i t = some (o1, i1, t1)) (h' : SRes ok o1 i1 t1 o2 i2 t2) :
    SRes ok o i t o2 i2 t2 := .pre (.one h) h'
theorem SRes.then {a b o i t o1 i1 t1 o2 i2 t2} (h : SRes a o i t o1 i1 t1) (h' : SRes b o1 i1 t1 o2 i2 t2) :
    SRes (a && b) o i t o2 i2 t2 := by
  cases a with
  | true => rw [Bool.true_and]; exact .pre h h'
  | false => exact h
theorem SRes.last {a o i t o1 i1 t1 o2 i2 t2} (h : SRes a o i t o1 i1 t1) (h' : sstep o1 i1 t1 = some (o2, i2, t2)) :
    SRes a o i t o2 i2 t2 := by
  cases a with
  | true => exact SSt.trans h (.one h')
  | false => exact h
/-- The last action reads the end of the branch. -/
theorem SRes.check {a b o i t x y o1 i1 t1 o2 i2 t2} (h : SRes a o i t (x :: y :: o1) i1 t1)
    (h' : sstep (x :: y :: o1) i1 t1 = if b then some (o2, i2, t2) else none) : SRes (a && b) o i t o2 i2 t2 := by
  refine h.then ?_
  cases b with
  | true => exact SSt.one (by simpa using h')
  | false => exact ⟨_, _, _, _, _, .refl, by simpa using h'⟩

/-- What reading a phrase of a statement means for the parser. -/
def SParsed : SPhrase → List Tok → Prop
  | .left l, ts => ∀ (o : List OSym) (t : Tok) (rest : List Tok), t.endsLeft = true →
      SSt (.lhs :: o) [] (ts ++ t :: rest) (.lv l :: o) [] (t :: rest)
  | .lefts ls, ts => ∀ (o : List OSym) (t : Tok) (rest : List Tok), t.endsLeft = true → ∃ ls' l, ls = ls' ++ [l] ∧
      SSt (.lhs :: .lcat [] :: o) [] (ts ++ t :: rest) (.lv l :: .lcat ls' :: o) [] (t :: rest)
  | .stmt b s, ts => ∀ (o : List OSym) (rest : List Tok), NewTop o →
      (b = true → rest.head? ≠ some (kwt "else")) → SRes s.loopsInside o [] (ts ++ rest) (.st s :: o) [] rest
  | .stmts ss, ts => ∀ (n : Option Str) (o : List OSym) (rest : List Tok),
      rest.head? ≠ some (kwt "else") → SRes (Stmt.loopsInsides ss) (.blk n [] :: o) [] (ts ++ rest) (.blk n ss :: o) [] rest
  | .alts es, ts => ∀ (o : List OSym) (t : Tok) (rest : List Tok), t.ends = true → ∃ es' e, es = es' ++ [e] ∧
      SSt (.conds [] :: o) [] (ts ++ t :: rest) (.conds es' :: o) [.ex e] (t :: rest)
  | .items cs ss, ts => ∀ (k : CaseKind) (c : Ex) (o : List OSym) (rest : List Tok),
      rest.head? ≠ some (kwt "else") → SRes (Stmt.loopsInsides ss) (.caseh k c [] [] :: o) [] (ts ++ rest) (.caseh k c cs ss :: o) [] rest

theorem loopsInsides_append (ss ss' : List Stmt) :
    Stmt.loopsInsides (ss ++ ss') = (Stmt.loopsInsides ss && Stmt.loopsInsides ss') := by
  induction ss with
  | nil => simp [Stmt.loopsInsides]
  | cons s ss ih => simp [Stmt.loopsInsides, ih, Bool.and_assoc]

theorem sderives_notSkip {b : Bool} {s : Stmt} {ts : List Tok} (h : SDerives (.stmt b s) ts) : s ≠ .skip := by
  cases h <;> simp

theorem loopsInside_if {c : Ex} {t f : Stmt} (hf : f ≠ .skip) :
    (Stmt.ifs c t f).loopsInside = (t.loopsInside && f.loopsInside && !f.isLoop) := by
  cases f <;> first | exact absurd rfl hf | rfl

theorem hasEnd_of {s : Stmt} (h : s ≠ .skip) : s.hasEnd = !s.isLoop := by
  cases s <;> first | rfl | exact absurd rfl h

theorem sderives_parsed {ph : SPhrase} {ts : List Tok} (h : SDerives ph ts) : SParsed ph ts := by
  have hasg : ∀ (nb : Bool) {l r : Ex} {ts us : List Tok}, SParsed (.left l) ts → SDerives (.left l) ts → Derives (.expr 0 r) us →
      ∀ (o : List OSym) (rest : List Tok), NewTop o →
      SSt o [] ((ts ++ .p (asgPun nb) :: (us ++ [.p .semicolon])) ++ rest) (.st (if nb then .nb l r else .ba l r) :: o) [] rest := by
    intro nb l r ts us hl hd hr o rest ho
    simp only [List.append_assoc, List.cons_append, List.nil_append]
    obtain ⟨t, q, e, ht⟩ := sderives_first hd
    refine .head (o1 := .lhs :: o) (i1 := []) (t1 := ts ++ .p (asgPun nb) :: (us ++ .p .semicolon :: rest)) ?_ ?_
    · rw [e, List.cons_append]
      rcases ht with ⟨n, rfl⟩ | rfl
      · rw [ho _ (by simp [kwt])]; rfl
      · rw [ho _ (by simp [kwt])]; rfl
    · refine (hl o _ _ (by cases nb <;> rfl)).trans (.head (sstep_lv ho.noCat l nb _) ?_)
      refine (sread_ex hr (by exact trivial) rfl rest).trans (.one ?_)
      cases nb <;> rfl
  induction h with
  | base h =>
    intro o t rest ht
    rename_i v _
    obtain ⟨b, hb, hst⟩ := derives_parsed h [] (t :: rest) rfl
    obtain ⟨n, r, e⟩ := derives_first h
    have hl : leftOf [b] = some v := by
      cases b <;> first | (simp [Sym.base?] at hb; done) | (simp only [Sym.base?] at hb; exact hb)
    exact (lift_lhs hl (.inr ⟨n, by rw [e]; rfl⟩) hst).trans (.one (lv_of_left hl ht rest))
  | part h1 h2 h3 =>
    intro o t rest ht
    obtain ⟨n, r, e⟩ := derives_first h1
    exact sread_psel (.part h1 h2 h3) ⟨n, _, by rw [e]; rfl⟩ o ht rest
  | partUp h1 h2 h3 =>
    intro o t rest ht
    obtain ⟨n, r, e⟩ := derives_first h1
    exact sread_psel (.partUp h1 h2 h3) ⟨n, _, by rw [e]; rfl⟩ o ht rest
  | partDown h1 h2 h3 =>
    intro o t rest ht
    obtain ⟨n, r, e⟩ := derives_first h1
    exact sread_psel (.partDown h1 h2 h3) ⟨n, _, by rw [e]; rfl⟩ o ht rest
  | concat _ ih =>
    intro o t rest ht
    obtain ⟨ls', l, rfl, hst⟩ := ih o (.p .rbrace) (t :: rest) rfl
    simp only [List.append_assoc, List.cons_append, List.nil_append]
    exact .head (o1 := .lhs :: .lcat [] :: o) (i1 := []) rfl (hst.trans (.one rfl))
  | left _ ih => exact fun o t rest ht => ⟨[], _, rfl, ih _ t rest ht⟩
  | @lefts ls l ts us _ _ ihs ih =>
    intro o t rest ht
    obtain ⟨ls', l', rfl, hst⟩ := ihs o (.p .comma) (us ++ t :: rest) rfl
    refine ⟨_, _, rfl, ?_⟩
    simp only [List.append_assoc, List.cons_append]
    have h2 := ih (.lcat (ls' ++ [l']) :: o) t rest ht
    exact hst.trans (.head (o1 := .lhs :: .lcat (ls' ++ [l']) :: o) (i1 := []) rfl (by simpa using h2))
  | blocking h1 h2 ih => exact fun o rest ho _ => .done (hasg false ih h1 h2 o rest ho)
  | nonblocking h1 h2 ih => exact fun o rest ho _ => .done (hasg true ih h1 h2 o rest ho)
  | noStmt => exact fun _ _ _ _ => .done .refl
  | @stmts ss b s ts us _ hs ihs ih =>
    intro n o rest hr
    rw [loopsInsides_append]
    simp only [Stmt.loopsInsides, Bool.and_true]
    obtain ⟨t, r, e, h1, h2, h3⟩ := sderives_first hs
    rw [List.append_assoc]
    refine (ihs n o _ ?_).then ((ih _ rest (newTop_blk n ss o) (fun _ => hr)).last rfl)
    rw [e]; simpa using h2
  | @block ss ts hs ih =>
    intro o rest ho _
    simp only [List.append_assoc, List.cons_append, List.nil_append]
    have hl := ih none o (.kw "end".toList :: rest) (by simp [kwt])
    refine .first (o1 := .blk none [] :: o) (i1 := []) (t1 := ts ++ .kw "end".toList :: rest) ?_ (hl.last ?_)
    · rw [start_kw ho _ _ (by decide)]
      simp only [startStmt, if_true]
      split
      · next n' ts' he =>
        exfalso
        rcases sderives_first hs with rfl | ⟨t, r, rfl, ht⟩
        · simp at he
        · simp only [List.cons_append, List.cons.injEq] at he; exact ht he.1
      · rfl
    · simp [sstep]
  | @named n ss ts hs ih =>
    intro o rest ho _
    simp only [List.append_assoc, List.cons_append, List.nil_append]
    have hl := ih (some n) o (.kw "end".toList :: rest) (by simp [kwt])
    refine .first (o1 := .blk (some n) [] :: o) (i1 := []) (t1 := ts ++ .kw "end".toList :: rest) ?_ (hl.last ?_)
    · rw [start_kw ho _ _ (by decide)]; rfl
    · simp [sstep]
  | @ifElse c t b f ts us ws hc ht hf iht ihf =>
    intro o rest ho hr
    have hns := sderives_notSkip hf
    rw [loopsInside_if hns]
    simp only [List.append_assoc, List.cons_append]
    refine .first (o1 := .head "if".toList :: o) (i1 := []) (by rw [start_kw ho _ _ (by decide)]; rfl) ?_
    refine .pre (sread_ex hc (by exact trivial) (t := .p .rparen) rfl _) (.first (o1 := .ifh c :: o) (i1 := []) rfl ?_)
    rw [Bool.and_assoc]
    refine (iht _ _ (newTop_ifh _ _) (by simp)).then ?_
    refine .first (o1 := .els c t :: o) (i1 := []) (t1 := ws ++ rest) (by simp [sstep, reduceStmt]) ?_
    refine (ihf _ _ (newTop_els _ _ _) hr).check ?_
    simp only [sstep, reduceStmt, hasEnd_of hns]
  | @ifOnly c b t ts us hc ht iht =>
    intro o rest ho hr
    have hns := sderives_notSkip ht
    have hne := hr rfl
    simp only [List.append_assoc, List.cons_append]
    refine .first (o1 := .head "if".toList :: o) (i1 := []) (by rw [start_kw ho _ _ (by decide)]; rfl) ?_
    refine .pre (sread_ex hc (by exact trivial) (t := .p .rparen) rfl _) (.first (o1 := .ifh c :: o) (i1 := []) rfl ?_)
    simp only [Stmt.loopsInside]
    refine (iht _ _ (newTop_ifh _ _) (fun _ => hne)).check ?_
    simp only [sstep, reduceStmt, hasEnd_of hns]
    split
    · next w ts' =>
      rw [if_neg]
      rintro rfl
      exact hne rfl
    · rfl
  | @«for» pl pr c ql qr b s ts1 ts2 ts3 ts4 ts5 us h1 h2 h3 h4 h5 _ ih1 ih4 ih =>
    intro o rest ho hr
    simp only [List.append_assoc, List.cons_append]
    refine .first (o1 := .lhs :: .forP :: o) (i1 := []) (by rw [start_kw ho _ _ (by decide)]; rfl) ?_
    refine .pre (ih1 _ _ _ rfl) (.first (sstep_lv (o := .forP :: o) (by intro _ _; simp) pl false _) ?_)
    refine .pre (sread_ex h2 (by exact trivial) (t := .p .semicolon) rfl _) ?_
    refine .first (o1 := .st (.ba pl pr) :: .forP :: o) (i1 := []) rfl (.first (o1 := .forC pl pr :: o) (i1 := []) rfl ?_)
    refine .pre (sread_ex h3 (by exact trivial) (t := .p .semicolon) rfl _) (.first (o1 := .lhs :: .forQ pl pr c :: o) (i1 := []) rfl ?_)
    refine .pre (ih4 _ _ _ rfl) (.first (sstep_lv (o := .forQ pl pr c :: o) (by intro _ _; simp) ql false _) ?_)
    refine .pre (sread_ex h5 (by exact trivial) (t := .p .rparen) rfl _) ?_
    refine .first (o1 := .forB pl pr c ql qr :: o) (i1 := []) rfl ?_
    exact (ih _ _ (newTop_forB _ _ _ _ _ _) hr).last rfl
  | @«while» c b s ts us hc _ ih =>
    intro o rest ho hr
    simp only [List.append_assoc, List.cons_append]
    refine .first (o1 := .head "while".toList :: o) (i1 := []) (by rw [start_kw ho _ _ (by decide)]; rfl) ?_
    refine .pre (sread_ex hc (by exact trivial) (t := .p .rparen) rfl _) (.first (o1 := .whileh c :: o) (i1 := []) rfl ?_)
    exact (ih _ _ (newTop_whileh _ _) hr).last rfl
  | alt h => exact fun o t rest ht => ⟨[], _, rfl, sread_ex h (by exact trivial) ht rest⟩
  | @alts es e ts us _ h ih =>
    intro o t rest ht
    obtain ⟨es', e', rfl, hst⟩ := ih o (.p .comma) (us ++ t :: rest) rfl
    refine ⟨_, _, rfl, ?_⟩
    simp only [List.append_assoc, List.cons_append]
    have h2 := sread_ex h (o := .conds (es' ++ [e']) :: o) (by exact trivial) ht rest
    exact hst.trans (.head (o1 := .conds (es' ++ [e']) :: o) (i1 := []) rfl (by simpa using h2))
  | noItem => exact fun _ _ _ _ _ => .done .refl
  | @item cs ss es b s ts us ws _ hes hs ihs ihe ih =>
    intro k c o rest hr
    rw [loopsInsides_append]
    simp only [Stmt.loopsInsides, Bool.and_true]
    obtain ⟨t, r, e, ht⟩ := sderives_first hes
    obtain ⟨es', e', rfl, hst⟩ := ihe (.caseh k c cs ss :: o) (.p .colon) (ws ++ rest) rfl
    simp only [List.append_assoc, List.cons_append]
    refine (ihs k c o _ (by rw [e]; simpa [kwt] using ht _)).then ?_
    refine .first (o1 := .conds [] :: .caseh k c cs ss :: o) (i1 := []) (t1 := us ++ .p .colon :: (ws ++ rest)) ?_ (.pre hst ?_)
    · rw [e]
      cases t <;> first | rfl | exact absurd rfl (ht _)
    · refine .first (o1 := .item (some (es' ++ [e'])) :: .caseh k c cs ss :: o) (i1 := []) rfl ?_
      exact (ih _ _ (newTop_item _ _) (fun _ => hr)).last rfl
  | @default cs ss b s ts ws _ hs ihs ih =>
    intro k c o rest hr
    rw [loopsInsides_append]
    simp only [Stmt.loopsInsides, Bool.and_true]
    simp only [List.append_assoc, List.cons_append]
    refine (ihs k c o _ (by simp [kwt])).then ?_
    refine .first (o1 := .item none :: .caseh k c cs ss :: o) (i1 := []) (t1 := ws ++ rest) (by simp [sstep]) ?_
    exact (ih _ _ (newTop_item _ _) (fun _ => hr)).last rfl
  | @case k c cs ss ts us hc _ hne ih =>
    intro o rest ho _
    have hfin : SRes (Stmt.loopsInsides ss) (.caseh k c [] [] :: o) [] (us ++ .kw "endcase".toList :: rest) (.st (.cases k c cs ss) :: o) [] rest :=
      (ih k c o _ (by simp [kwt])).last (sstep_endcase k c cs ss o rest hne)
    have hhead : ∀ w, headOf w c = some (.caseh k c [] []) → SRes (Stmt.loopsInsides ss)
        (.head w :: o) [] (ts ++ .p .rparen :: (us ++ .kw "endcase".toList :: rest)) (.st (.cases k c cs ss) :: o) [] rest := by
      intro w hw
      refine .pre (sread_ex hc (by exact trivial) (t := .p .rparen) rfl _) (.first (o1 := .caseh k c [] [] :: o) (i1 := []) ?_ hfin)
      simp [sstep, hw]
    simp only [List.append_assoc, List.cons_append, List.nil_append]
    cases k with
    | unique =>
      refine .first (o1 := .head "unique".toList :: o) (i1 := []) ?_ (hhead _ rfl)
      show sstep o [] (.kw "unique".toList :: .kw "case".toList :: .p .lparen :: _) = _
      rw [start_kw ho _ _ (by decide)]; rfl
    | case_ =>
      refine .first (o1 := .head "case".toList :: o) (i1 := []) ?_ (hhead _ rfl)
      show sstep o [] (.kw "case".toList :: .p .lparen :: _) = _
      rw [start_kw ho _ _ (by decide)]; rfl
    | casex =>
      refine .first (o1 := .head "casex".toList :: o) (i1 := []) ?_ (hhead _ rfl)
      show sstep o [] (.kw "casex".toList :: .p .lparen :: _) = _
      rw [start_kw ho _ _ (by decide)]; rfl
    | casez =>
      refine .first (o1 := .head "casez".toList :: o) (i1 := []) ?_ (hhead _ rfl)
      show sstep o [] (.kw "casez".toList :: .p .lparen :: _) = _
      rw [start_kw ho _ _ (by decide)]; rfl

end Pyv
