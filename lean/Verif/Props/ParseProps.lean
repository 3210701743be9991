import Verif.Props.CodeLex
/-
  The parser turns the tokens of a printed expression back into the expression.
-/
namespace Pyv

/-- Zero or more actions of the parser. -/
inductive St : List Sym → List Tok → List Sym → List Tok → Prop
  | refl {s t} : St s t s t
  | head {s t s1 t1 s2 t2} : step s t = some (s1, t1) → St s1 t1 s2 t2 → St s t s2 t2

theorem St.trans {s t s1 t1 s2 t2} (h : St s t s1 t1) (h2 : St s1 t1 s2 t2) : St s t s2 t2 := by
  induction h with
  | refl => exact h2
  | head h _ ih => exact .head h (ih h2)

theorem parseN_step (n : Nat) (st : List Sym) (ts : List Tok) (st' : List Sym) (ts' : List Tok)
    (h : step st ts = some (st', ts')) : parseN (n + 1) st ts = parseN n st' ts' := by
  have hne : ∀ e, st = [Sym.ex e] → ts = [] → False := by
    rintro e rfl rfl; simp [step, stepEx, shift] at h
  rw [parseN, h]
  exact hne

theorem parseN_stuck (n : Nat) (st : List Sym) (ts : List Tok) (hne : ∀ e, st = [Sym.ex e] → ts = [] → False)
    (h : step st ts = none) : parseN (n + 1) st ts = none := by
  rw [parseN, h]
  exact hne

theorem St.parse {s : List Sym} {ts : List Tok} {e : Ex} (h : St s ts [.ex e] []) : ∃ n, parseN n s ts = some e := by
  generalize hf : [Sym.ex e] = f at h
  generalize hr : ([] : List Tok) = r at h
  induction h with
  | refl => subst hf; subst hr; exact ⟨1, rfl⟩
  | head h _ ih =>
    obtain ⟨n, hn⟩ := ih hf hr
    exact ⟨n + 1, by rw [parseN_step _ _ _ _ _ h, hn]⟩

/-- The fuel of the parser's loop does not matter once it is enough. -/
theorem parseN_mono : ∀ (n m : Nat) (st : List Sym) (ts : List Tok) (e : Ex), n ≤ m → parseN n st ts = some e →
    parseN m st ts = some e
  | 0, _, _, _, _, _, h => by simp [parseN] at h
  | n + 1, 0, _, _, _, hm, _ => by omega
  | n + 1, m + 1, st, ts, e, hm, h => by
    by_cases hf : ∃ e', st = [Sym.ex e'] ∧ ts = []
    · obtain ⟨e', rfl, rfl⟩ := hf
      exact h
    · cases hs : step st ts with
      | none => rw [parseN_stuck n st ts (fun e' h1 h2 => hf ⟨e', h1, h2⟩) hs] at h; simp at h
      | some x =>
        rw [parseN_step n st ts x.1 x.2 hs] at h
        rw [parseN_step m st ts x.1 x.2 hs]
        exact parseN_mono n m x.1 x.2 e (by omega) h

/-- A text has at most one reading. -/
theorem ParsesTo.unique {text : Str} {e e' : Ex} (h : ParsesTo text e) (h' : ParsesTo text e') : e = e' := by
  obtain ⟨ts, hl, n, hn⟩ := h
  obtain ⟨ts', hl', n', hn'⟩ := h'
  rw [hl] at hl'
  obtain rfl : ts = ts' := by simpa using hl'
  have h1 := parseN_mono n (max n n') _ _ _ (Nat.le_max_left ..) hn
  have h2 := parseN_mono n' (max n n') _ _ _ (Nat.le_max_right ..) hn'
  rw [h1] at h2
  simpa using h2

/-- An expression may begin on this stack. -/
def Ctx : List Sym → Bool
  | [] => true
  | .tok (.p k) :: _ => k ∉ [Pun.rparen, .rbracket, .rbrace, .doller, .dot]
  | _ => false

/-- The level of the operator that waits for its right operand on the top of the stack, 0 if there is none. -/
def pend : List Sym → Nat
  | .tok (.p k) :: .ex _ :: _ => if k.binOp.isSome then k.level else 0
  | .tok (.p k) :: _ => if k.unOp.isSome then 12 else 0
  | _ => 0

theorem ctx_callHead {σ : List Sym} (h : Ctx σ = true) : callHead σ = false := by
  unfold Ctx at h
  split at h
  · rfl
  · rfl
  · simp at h

theorem shiftCtx (σ : List Sym) (t : Tok) (ts : List Tok) (h : Ctx σ = true) (h1 : t ≠ .p .rparen) (h2 : t ≠ .p .comma) :
    step σ (t :: ts) = some (.tok t :: σ, ts) := by
  unfold Ctx at h
  split at h
  · rfl
  · next k _ => cases k <;> first | (simp at h; done) | (simp [step, shift, h1, h2])
  · simp at h

theorem binOp_level (k : Pun) (h : k.binOp.isSome = true) : 1 ≤ k.level := by
  cases k <;> first | (simp [Pun.binOp] at h; done) | decide

/-- With an operator as lookahead that binds stronger than the waiting operator, the operator is shifted. -/
theorem shift_infix (e : Ex) (σ : List Sym) (k : Pun) (ts : List Tok) (sl : Nat) (hi : Tok.infix? (some (.p k)) = some sl)
    (hp : pend σ < sl ∨ pend σ = 0) : step (.ex e :: σ) (.p k :: ts) = some (.tok (.p k) :: .ex e :: σ, ts) := by
  have hk : (Tok.p k) ≠ .p .rbrace ∧ (Tok.p k) ≠ .p .comma ∧ (Tok.p k) ≠ .p .rparen := by
    cases k <;> first | (simp [Tok.infix?, Pun.binOp] at hi; done) | simp
  simp only [step, stepEx, List.head?_cons]
  split
  · simp [shift, hk]
  · simp [reduceCond, hi, shift]
  · next k' a st' _ _ =>
    split
    · next o ho =>
      have hl := binOp_level k' (by rw [ho]; rfl)
      have : pend (.tok (.p k') :: .ex a :: st') = k'.level := by simp [pend, ho]
      rw [this] at hp
      have : ¬ sl ≤ k'.level := by omega
      simp [reduceLeft, hi, this, shift]
    · rfl
  · simp [hi, shift]
  · simp [hi, shift]
  · simp [hk, shift]
  · next k' st' h1 h2 h3 h4 h5 h6 =>
    split
    · next f hf =>
      exfalso
      have : pend (.tok (.p k') :: st') = 12 := by
        unfold pend
        split
        · next he => simp at he; exact absurd he.2 (h3 _ _)
        · next he => simp at he; rw [← he.1]; simp [hf]
        · next h8 => exact absurd rfl (h8 _ _)
      rw [this] at hp
      have : sl ≤ 11 := by
        cases k <;> simp [Tok.infix?, Pun.binOp, Pun.level] at hi <;> omega
      omega
    · rfl
  · rfl


/-- What follows does not go on with a name. -/
def Follow (ts : List Tok) : Prop :=
  ts.head? ≠ some (.p .lbracket) ∧ ts.head? ≠ some (.p .dot) ∧ ts.head? ≠ some (.p .lparen)

/-- The operator waiting on the stack binds weaker than the expression. -/
def Weaker (σ : List Sym) : Ex → Prop
  | .bin o _ _ => pend σ < o.pun.level
  | .cond _ _ _ => pend σ = 0
  | _ => True

/-- What follows ends the expression. -/
def Red (ts : List Tok) : Ex → Prop
  | .bin o _ _ => reduceLeft o.pun.level ts.head? = true
  | .cond _ _ _ => reduceCond ts.head? = true
  | _ => True

theorem red_none {ts : List Tok} (h : Tok.infix? ts.head? = none) (e : Ex) : Red ts e := by
  cases e <;> simp [Red, reduceLeft, reduceCond, h]

theorem weaker_zero {σ : List Sym} (h : pend σ = 0) (e : Ex) (hw : e.WF) : Weaker σ e := by
  cases e with
  | bin o a b =>
    simp only [Ex.WF] at hw
    simp only [Weaker, h]
    cases o <;> first | (simp [Op.unary] at hw; done) | decide
  | cond => exact h
  | _ => trivial

theorem weaker_atom (σ : List Sym) (e : Ex) (h : e.wrapped = false) : Weaker σ e := by
  cases e <;> first | trivial | simp [Ex.wrapped] at h
theorem red_atom (ts : List Tok) (e : Ex) (h : e.wrapped = false) : Red ts e := by
  cases e <;> first | trivial | simp [Ex.wrapped] at h

/-- Tokens of binary operators: the class they build, and their level against op2mark.py's order. -/
theorem op_pun_binary (o : Op) (h : o.unary = false) :
    o.pun.binOp = some o ∧ o.pun.level = 12 - o.order ∧ 1 ≤ o.pun.level ∧ 1 ≤ o.order ∧ o.order ≤ 11 := by
  cases o <;> first | (simp [Op.unary] at h; done) | decide
theorem op_pun_unary (o : Op) (h : o.unary = true) : o.pun.unOp = some (.un o) := by
  cases o <;> first | (simp [Op.unary] at h; done) | rfl
theorem infix_pun (o : Op) (h : o.unary = false) : Tok.infix? (some (.p o.pun)) = some o.pun.level := by
  cases o <;> first | (simp [Op.unary] at h; done) | decide
theorem follow_pun (o : Op) (ts : List Tok) : Follow (.p o.pun :: ts) := by
  cases o <;> simp [Follow, Op.pun]
theorem pun_ne (o : Op) : (Tok.p o.pun) ≠ .p .rparen ∧ (Tok.p o.pun) ≠ .p .comma := by
  cases o <;> simp [Op.pun]
theorem ctx_pun (o : Op) (σ : List Sym) : Ctx (.tok (.p o.pun) :: σ) = true := by
  cases o <;> simp [Ctx, Op.pun]

theorem stepEx_bin (e a : Ex) (o : Op) (h : o.unary = false) (σ : List Sym) (ts : List Tok)
    (hr : reduceLeft o.pun.level ts.head? = true) :
    step (.ex e :: .tok (.p o.pun) :: .ex a :: σ) ts = some (.ex (.bin o a e) :: σ, ts) := by
  cases o <;> first | (simp [Op.unary] at h; done) | (simp only [Op.pun] at hr ⊢; simp [step, stepEx, Pun.binOp, hr])

theorem stepEx_un (e : Ex) (o : Op) (h : o.unary = true) (σ : List Sym) (hσ : Ctx σ = true) (ts : List Tok) :
    step (.ex e :: .tok (.p o.pun) :: σ) ts = some (.ex (.un o e) :: σ, ts) := by
  have hne : ∀ a st, σ ≠ .ex a :: st := by
    rintro a st rfl; simp [Ctx] at hσ
  cases σ with
  | nil => cases o <;> first | (simp [Op.unary] at h; done) | rfl
  | cons x σ =>
    cases x with
    | ex a => exact absurd rfl (hne a σ)
    | tok t => cases o <;> first | (simp [Op.unary] at h; done) | rfl
    | _ => simp [Ctx] at hσ

/-- Labels of a hierarchical name. -/
theorem parse_scope (sc : List Str) : ∀ (sc0 : List Str) (n : Str) (σ : List Sym) (ts : List Tok),
    St (.scope sc0 :: σ) (sc.flatMap (fun l => [Tok.id l, .p .dot]) ++ [.id n] ++ ts) (.idn (sc0 ++ sc) n :: σ) ts := by
  induction sc with
  | nil =>
    intro sc0 n σ ts
    simp only [List.flatMap_nil, List.nil_append, List.cons_append, List.append_nil]
    exact .head rfl (.head rfl .refl)
  | cons l sc ih =>
    intro sc0 n σ ts
    simp only [List.flatMap_cons, List.cons_append, List.nil_append]
    refine .head (s1 := .tok (.id l) :: .scope sc0 :: σ) rfl (.head (s1 := .idn sc0 l :: σ) rfl
      (.head (s1 := .tok (.p .dot) :: .idn sc0 l :: σ) rfl (.head (s1 := .scope (sc0 ++ [l]) :: σ) rfl ?_)))
    have := ih (sc0 ++ [l]) n σ ts
    simpa using this

theorem step_id (n : Str) (σ : List Sym) (ts : List Tok) (h : Ctx σ = true) :
    step (.tok (.id n) :: σ) ts = some (.idn [] n :: σ, ts) := by
  unfold Ctx at h
  split at h
  · rfl
  · next k _ => cases k <;> first | (simp at h; done) | rfl
  · simp at h

theorem parse_ident (sc : List Str) (n : Str) (σ : List Sym) (ts : List Tok) (h : Ctx σ = true) :
    St σ (sc.flatMap (fun l => [Tok.id l, .p .dot]) ++ [.id n] ++ ts) (.idn sc n :: σ) ts := by
  cases sc with
  | nil => exact .head (shiftCtx σ _ _ h (by simp) (by simp)) (.head (step_id n σ ts h) .refl)
  | cons l sc =>
    simp only [List.flatMap_cons, List.cons_append, List.nil_append]
    refine .head (shiftCtx σ _ _ h (by simp) (by simp)) (.head (step_id l σ _ h)
      (.head (s1 := .tok (.p .dot) :: .idn [] l :: σ) rfl (.head (s1 := .scope [l] :: σ) rfl ?_)))
    have := parse_scope sc [l] n σ ts
    simpa using this

/-- The stripped tokens of an expression are reduced to it. -/
def PInner (e : Ex) : Prop := ∀ (σ : List Sym) (ts : List Tok), Ctx σ = true → Weaker σ e → Follow ts → Red ts e →
  St σ (e.itoks ++ ts) (.ex e.erase :: σ) ts
/-- The tokens of an expression, with their parentheses, are reduced to it. -/
def POuter (e : Ex) : Prop := ∀ (σ : List Sym) (ts : List Tok), Ctx σ = true → Follow ts →
  St σ (e.toks ++ ts) (.ex e.erase :: σ) ts
/-- The tokens of an indexable expression are reduced to it. -/
def PBase (e : Ex) : Prop := ∀ (σ : List Sym) (ts : List Tok), Ctx σ = true →
  ∃ b, Sym.base? b = some e.erase ∧ St σ (e.itoks ++ ts) (b :: σ) ts

theorem outer_of_inner (e : Ex) (hw : e.WF) (h : PInner e) : POuter e := by
  intro σ ts hσ hf
  unfold Ex.toks Ex.wrapT
  cases hx : e.wrapped with
  | false =>
    simp only [Bool.false_eq_true, if_false]
    exact h σ ts hσ (weaker_atom σ e hx) hf (red_atom ts e hx)
  | true =>
    simp only [if_true, List.cons_append, List.append_assoc, List.nil_append]
    refine .head (shiftCtx σ _ _ hσ (by simp) (by simp)) ?_
    refine St.trans (h (.tok (.p .lparen) :: σ) (.p .rparen :: ts) rfl (weaker_zero (by cases σ with | nil => rfl | cons x σ => cases x <;> rfl) e hw) ?_ (red_none rfl e)) ?_
    · simp [Follow]
    · have hc := ctx_callHead hσ
      refine .head (s1 := .tok (.p .rparen) :: .ex e.erase :: .tok (.p .lparen) :: σ) (t1 := ts) ?_
        (.head (s1 := .ex e.erase :: σ) (t1 := ts) ?_ .refl)
      · cases σ with
        | nil => rfl
        | cons x σ => cases x <;> first | rfl | simp [step, stepEx, hc, shift]
      · simp [step, stepParen, hc]

/-- A base symbol becomes an expression when nothing indexes it. -/
theorem base_reduce (b : Sym) (v : Ex) (hb : b.base? = some v) (σ : List Sym) (ts : List Tok) (hf : Follow ts) :
    step (b :: σ) ts = some (.ex v :: σ, ts) := by
  obtain ⟨h1, h2, h3⟩ := hf
  cases b with
  | idn sc n =>
    simp only [Sym.base?, Option.some.injEq] at hb; subst hb
    simp only [step]
  | ptr v p =>
    simp only [Sym.base?, Option.some.injEq] at hb; subst hb
    simp only [step]
  | _ => simp [Sym.base?] at hb

theorem base_shift (b : Sym) (v : Ex) (hb : b.base? = some v) (σ : List Sym) (ts : List Tok) :
    step (b :: σ) (.p .lbracket :: ts) = some (.tok (.p .lbracket) :: b :: σ, ts) := by
  cases b with
  | idn sc n => rfl
  | ptr v p => rfl
  | _ => simp [Sym.base?] at hb

theorem pend_of {k : Pun} (σ : List Sym) (h1 : k.binOp = none) (h2 : k.unOp = none) : pend (.tok (.p k) :: σ) = 0 := by
  cases σ with
  | nil => simp [pend, h2]
  | cons x σ => cases x <;> simp [pend, h1, h2]

/-- The items of a concatenation. -/
theorem parse_items (σ : List Sym) (ts : List Tok) : ∀ (es : List Ex) (done : List Ex),
    (∀ e ∈ es, PInner e ∧ e.WF) → es ≠ [] →
    St (.tok (.p .comma) :: .cl done :: .tok (.p .lbrace) :: σ) (commaT (es.map Ex.itoks) ++ .p .rbrace :: ts)
      (.cl (done ++ es.map Ex.erase) :: .tok (.p .lbrace) :: σ) (.p .rbrace :: ts) := by
  intro es
  induction es with
  | nil => intro _ _ h; exact absurd rfl h
  | cons e es ih =>
    intro done hes _
    obtain ⟨he, hw⟩ := hes e (by simp)
    have hstep : ∀ la ts', Tok.infix? (some la) = none →
        step (.ex e.erase :: .tok (.p .comma) :: .cl done :: .tok (.p .lbrace) :: σ) (la :: ts') =
        some (.cl (done ++ [e.erase]) :: .tok (.p .lbrace) :: σ, la :: ts') := by
      intro la ts' hla
      simp [step, stepEx, hla]
    have hpe : pend (.tok (.p .comma) :: .cl done :: .tok (.p .lbrace) :: σ) = 0 := rfl
    cases es with
    | nil =>
      refine St.trans (he _ _ rfl (weaker_zero hpe e hw) (by simp [Follow]) (red_none rfl e)) ?_
      exact .head (hstep _ _ rfl) (by simpa using St.refl)
    | cons e2 es =>
      simp only [List.map_cons, commaT, List.append_assoc, List.cons_append]
      refine St.trans (he _ _ rfl (weaker_zero hpe e hw) (by simp [Follow]) (red_none rfl e)) ?_
      refine .head (hstep _ _ rfl) (.head (s1 := .tok (.p .comma) :: .cl (done ++ [e.erase]) :: .tok (.p .lbrace) :: σ) rfl ?_)
      have := ih (done ++ [e.erase]) (fun x hx => hes x (by simp at hx ⊢; tauto)) (by simp)
      simpa [commaT] using this

theorem parse_concat (σ : List Sym) (ts : List Tok) (es : List Ex) (hes : ∀ e ∈ es, PInner e ∧ e.WF) (hne : es ≠ []) :
    St (.tok (.p .lbrace) :: σ) (commaT (es.map Ex.itoks) ++ .p .rbrace :: ts) (.cat (es.map Ex.erase) :: σ) ts := by
  have hpe : pend (.tok (.p .lbrace) :: σ) = 0 := pend_of σ rfl rfl
  have hend : ∀ xs : List Ex, St (.cl xs :: .tok (.p .lbrace) :: σ) (.p .rbrace :: ts) (.cat xs :: σ) ts := by
    intro xs
    exact .head (s1 := .tok (.p .rbrace) :: .cl xs :: .tok (.p .lbrace) :: σ) rfl (.head rfl .refl)
  cases es with
  | nil => exact absurd rfl hne
  | cons e es =>
    obtain ⟨he, hw⟩ := hes e (by simp)
    cases es with
    | nil =>
      refine St.trans (he _ _ rfl (weaker_zero hpe e hw) (by simp [Follow]) (red_none rfl e)) ?_
      exact .head (s1 := .cl [e.erase] :: .tok (.p .lbrace) :: σ) rfl (hend _)
    | cons e2 es =>
      simp only [List.map_cons, commaT, List.append_assoc, List.cons_append]
      refine St.trans (he _ _ rfl (weaker_zero hpe e hw) (by simp [Follow]) (red_none rfl e)) ?_
      refine .head (s1 := .cl [e.erase] :: .tok (.p .lbrace) :: σ) rfl
        (.head (s1 := .tok (.p .comma) :: .cl [e.erase] :: .tok (.p .lbrace) :: σ) rfl ?_)
      have := parse_items σ ts (e2 :: es) [e.erase] (fun x hx => hes x (by simp at hx ⊢; tauto)) (by simp)
      exact St.trans this (hend _)

/-- The arguments of a call. -/
theorem parse_args_more (σ : List Sym) (ts : List Tok) : ∀ (es : List Ex) (done : List Ex),
    (∀ e ∈ es, POuter e) → es ≠ [] →
    St (.tok (.p .comma) :: .args done :: .tok (.p .lparen) :: σ) (commaT (es.map Ex.toks) ++ .p .rparen :: ts)
      (.args (done ++ es.map Ex.erase) :: .tok (.p .lparen) :: σ) (.p .rparen :: ts) := by
  intro es
  induction es with
  | nil => intro _ _ h; exact absurd rfl h
  | cons e es ih =>
    intro done hes _
    have he := hes e (by simp)
    have hstep : ∀ la ts', Tok.infix? (some la) = none →
        step (.ex e.erase :: .tok (.p .comma) :: .args done :: .tok (.p .lparen) :: σ) (la :: ts') =
        some (.args (done ++ [e.erase]) :: .tok (.p .lparen) :: σ, la :: ts') := by
      intro la ts' hla
      simp [step, stepEx, hla]
    cases es with
    | nil =>
      refine St.trans (he _ _ rfl (by simp [Follow])) ?_
      exact .head (hstep _ _ rfl) (by simpa using St.refl)
    | cons e2 es =>
      simp only [List.map_cons, commaT, List.append_assoc, List.cons_append]
      refine St.trans (he _ _ rfl (by simp [Follow])) ?_
      refine .head (hstep _ _ rfl) (.head (s1 := .tok (.p .comma) :: .args (done ++ [e.erase]) :: .tok (.p .lparen) :: σ) rfl ?_)
      have := ih (done ++ [e.erase]) (fun x hx => hes x (by simp at hx ⊢; tauto)) (by simp)
      simpa [commaT] using this

theorem parse_args (σ : List Sym) (hc : callHead σ = true) (ts : List Tok) (es : List Ex) (hes : ∀ e ∈ es, POuter e) :
    St (.tok (.p .lparen) :: σ) (commaT (es.map Ex.toks) ++ .p .rparen :: ts)
      (.tok (.p .rparen) :: .args (es.map Ex.erase) :: .tok (.p .lparen) :: σ) ts := by
  have hone : ∀ e : Ex, ∀ la ts', la = .p .rparen ∨ la = .p .comma →
      step (.ex e :: .tok (.p .lparen) :: σ) (la :: ts') = some (.args [e] :: .tok (.p .lparen) :: σ, la :: ts') := by
    intro e la ts' hla
    have hne : ∀ a st, σ ≠ .ex a :: st := by rintro a st rfl; simp [callHead] at hc
    cases σ with
    | nil => simp [callHead] at hc
    | cons x σ =>
      cases x with
      | ex a => exact absurd rfl (hne a σ)
      | _ => simp [step, stepEx, hc, hla]
  cases es with
  | nil =>
    simp only [List.map_nil, commaT, List.nil_append]
    refine .head (s1 := .args [] :: .tok (.p .lparen) :: σ) (t1 := .p .rparen :: ts) ?_ (.head rfl .refl)
    simp [step, hc]
  | cons e es =>
    have he := hes e (by simp)
    cases es with
    | nil =>
      refine St.trans (he _ _ rfl (by simp [Follow])) ?_
      exact .head (hone _ _ _ (Or.inl rfl)) (.head rfl .refl)
    | cons e2 es =>
      simp only [List.map_cons, commaT, List.append_assoc, List.cons_append]
      refine St.trans (he _ _ rfl (by simp [Follow])) ?_
      refine .head (hone _ _ _ (Or.inr rfl)) (.head (s1 := .tok (.p .comma) :: .args [e.erase] :: .tok (.p .lparen) :: σ) rfl ?_)
      have := parse_args_more σ ts (e2 :: es) [e.erase] (fun x hx => hes x (by simp at hx ⊢; tauto)) (by simp)
      exact St.trans this (.head rfl .refl)


theorem parse_main (e : Ex) : e.WF → PInner e ∧ (e.isBase = true → PBase e) ∧
    (∀ es, e = .concat es → ∀ x ∈ es, PInner x) := by
  induction e using Ex.ind with
  | ident sc n =>
    intro hw
    refine ⟨?_, fun _ => ?_, fun _ h => by simp at h⟩
    · intro σ ts hσ _ hf _
      simp only [Ex.itoks, Ex.erase]
      exact St.trans (parse_ident sc n σ ts hσ) (.head (base_reduce (.idn sc n) _ rfl σ ts hf) .refl)
    · intro σ ts hσ
      simp only [Ex.itoks, Ex.erase]
      exact ⟨.idn sc n, rfl, parse_ident sc n σ ts hσ⟩
  | intc s =>
    intro hw
    refine ⟨fun σ ts hσ _ hf _ => ?_, fun h => by simp [Ex.isBase] at h, fun _ h => by simp at h⟩
    simp only [Ex.itoks, Ex.erase]
    exact .head (shiftCtx σ _ _ hσ (by simp) (by simp)) (.head rfl .refl)
  | fltc s =>
    intro hw
    refine ⟨fun σ ts hσ _ hf _ => ?_, fun h => by simp [Ex.isBase] at h, fun _ h => by simp at h⟩
    simp only [Ex.itoks, Ex.erase]
    exact .head (shiftCtx σ _ _ hσ (by simp) (by simp)) (.head rfl .refl)
  | strc s =>
    intro hw
    refine ⟨fun σ ts hσ _ hf _ => ?_, fun h => by simp [Ex.isBase] at h, fun _ h => by simp at h⟩
    simp only [Ex.itoks, Ex.erase]
    refine .head (shiftCtx σ _ _ hσ (by simp) (by simp)) (.head (s1 := .ex (.strc s) :: σ) ?_ .refl)
    simp [step]
  | uplus e ih =>
    intro hw
    simp only [Ex.WF] at hw
    refine ⟨fun σ ts hσ _ hf _ => ?_, fun h => by simp [Ex.isBase] at h, fun _ h => by simp at h⟩
    simp only [Ex.itoks, Ex.erase]
    exact outer_of_inner e hw (ih hw).1 σ ts hσ hf
  | un o e ih =>
    intro hw
    simp only [Ex.WF] at hw
    refine ⟨fun σ ts hσ _ hf _ => ?_, fun h => by simp [Ex.isBase] at h, fun _ h => by simp at h⟩
    simp only [Ex.itoks, Ex.erase, List.cons_append]
    refine .head (shiftCtx σ _ _ hσ (pun_ne o).1 (pun_ne o).2) ?_
    exact St.trans (outer_of_inner e hw.2 (ih hw.2).1 _ ts (ctx_pun o σ) hf) (.head (stepEx_un _ o hw.1 σ hσ ts) .refl)
  | bin o a b iha ihb =>
    intro hw
    simp only [Ex.WF] at hw
    refine ⟨fun σ ts hσ hwk hf hr => ?_, fun h => by simp [Ex.isBase] at h, fun _ h => by simp at h⟩
    obtain ⟨ho, _, hwa, hwb⟩ := hw
    simp only [Weaker] at hwk
    simp only [Red] at hr
    simp only [Ex.itoks, Ex.erase, List.append_assoc, List.cons_append]
    have hlv := op_pun_binary o ho
    have hleft : ∀ rest, St σ ((if a.stripLeft o then a.itoks else a.wrapT a.itoks) ++ .p o.pun :: rest)
        (.ex a.erase :: σ) (.p o.pun :: rest) := by
      intro rest
      cases hs : a.stripLeft o with
      | false =>
        simp only [Bool.false_eq_true, if_false]
        exact outer_of_inner a hwa (iha hwa).1 σ _ hσ (follow_pun o rest)
      | true =>
        simp only [if_true]
        refine (iha hwa).1 σ _ hσ ?_ (follow_pun o rest) ?_
        · cases a with
          | bin oa x y =>
            simp only [Ex.WF] at hwa
            have hla := op_pun_binary oa hwa.1
            simp [Ex.stripLeft, Ex.order?] at hs
            simp only [Weaker]; omega
          | cond c t f => simp [Ex.stripLeft, Ex.order?] at hs
          | _ => trivial
        · cases a with
          | bin oa x y =>
            simp only [Ex.WF] at hwa
            have hla := op_pun_binary oa hwa.1
            simp [Ex.stripLeft, Ex.order?] at hs
            simp only [Red, reduceLeft, List.head?_cons, infix_pun o ho, decide_eq_true_eq]; omega
          | cond c t f => simp [Ex.stripLeft, Ex.order?] at hs
          | _ => trivial
    have hright : St (.tok (.p o.pun) :: .ex a.erase :: σ) ((if b.stripRight o then b.itoks else b.wrapT b.itoks) ++ ts)
        (.ex b.erase :: .tok (.p o.pun) :: .ex a.erase :: σ) ts := by
      cases hs : b.stripRight o with
      | false =>
        simp only [Bool.false_eq_true, if_false]
        exact outer_of_inner b hwb (ihb hwb).1 _ _ (ctx_pun o _) hf
      | true =>
        simp only [if_true]
        have hpe : pend (.tok (.p o.pun) :: .ex a.erase :: σ) = o.pun.level := by simp [pend, hlv.1]
        refine (ihb hwb).1 _ _ (ctx_pun o _) ?_ hf ?_
        · cases b with
          | bin ob x y =>
            simp only [Ex.WF] at hwb
            have hlb := op_pun_binary ob hwb.1
            simp [Ex.stripRight, Ex.order?] at hs
            simp only [Weaker, hpe]; omega
          | cond c t f => simp [Ex.stripRight, Ex.order?] at hs
          | _ => trivial
        · cases b with
          | bin ob x y =>
            simp only [Ex.WF] at hwb
            have hlb := op_pun_binary ob hwb.1
            simp [Ex.stripRight, Ex.order?] at hs
            simp only [Red]
            unfold reduceLeft at hr ⊢
            split
            · next sl hsl => rw [hsl] at hr; simp only [decide_eq_true_eq] at hr ⊢; omega
            · rfl
          | cond c t f => simp [Ex.stripRight, Ex.order?] at hs
          | _ => trivial
    refine St.trans (hleft _) ?_
    refine .head (shift_infix _ _ _ _ _ (infix_pun o ho) (Or.inl hwk)) ?_
    exact St.trans hright (.head (stepEx_bin _ _ o ho σ ts hr) .refl)
  | cond c t f ihc iht ihf =>
    intro hw
    simp only [Ex.WF] at hw
    refine ⟨fun σ ts hσ hwk hf hr => ?_, fun h => by simp [Ex.isBase] at h, fun _ h => by simp at h⟩
    obtain ⟨hwc, hwt, hwf⟩ := hw
    simp only [Weaker] at hwk
    simp only [Red] at hr
    simp only [Ex.itoks, Ex.erase, List.append_assoc, List.cons_append]
    have hch := ctx_callHead hσ
    refine .head (shiftCtx σ _ _ hσ (by simp) (by simp)) ?_
    refine St.trans ((ihc hwc).1 _ _ rfl (weaker_zero (pend_of σ rfl rfl) c hwc) (by simp [Follow]) (red_none rfl c)) ?_
    refine .head (s1 := .tok (.p .rparen) :: .ex c.erase :: .tok (.p .lparen) :: σ)
      (t1 := .p .cond :: (t.itoks ++ .p .colon :: (f.itoks ++ ts))) ?_
      (.head (s1 := .ex c.erase :: σ) (t1 := .p .cond :: (t.itoks ++ .p .colon :: (f.itoks ++ ts))) ?_ ?_)
    · cases σ with
      | nil => rfl
      | cons x σ => cases x <;> first | rfl | simp [step, stepEx, hch, shift]
    · simp [step, stepParen, hch]
    · refine .head (shift_infix _ _ _ _ 0 rfl (Or.inr hwk)) ?_
      refine St.trans ((iht hwt).1 _ _ rfl (weaker_zero (pend_of _ rfl rfl) t hwt) (by simp [Follow]) (red_none rfl t)) ?_
      refine .head (s1 := .tok (.p .colon) :: .ex t.erase :: .tok (.p .cond) :: .ex c.erase :: σ) rfl ?_
      have hn : Tok.infix? ts.head? = none := by simpa [reduceCond] using hr
      refine St.trans ((ihf hwf).1 _ _ rfl (weaker_zero (pend_of _ rfl rfl) f hwf) hf (red_none hn f)) ?_
      refine .head (s1 := .ex (.cond c.erase t.erase f.erase) :: σ) (t1 := ts) ?_ .refl
      simp [step, stepEx, hr]
  | psel v m l ihv ihm ihl =>
    intro hw
    simp only [Ex.WF] at hw
    refine ⟨fun σ ts hσ _ hf _ => ?_, fun h => by simp [Ex.isBase] at h, fun _ h => by simp at h⟩
    obtain ⟨hb, hwv, hwm, hwl, _, _⟩ := hw
    simp only [Ex.itoks, Ex.erase, List.append_assoc, List.cons_append, List.nil_append]
    obtain ⟨b, hbb, hst⟩ := (ihv hwv).2.1 hb σ (.p .lbracket :: (m.itoks ++ .p .colon :: (l.itoks ++ .p .rbracket :: ts))) hσ
    refine St.trans hst (.head (base_shift b _ hbb σ _) ?_)
    have hne : ∀ a, b ≠ .ex a := by rintro a rfl; simp [Sym.base?] at hbb
    refine St.trans ((ihm hwm).1 _ _ rfl (weaker_zero (pend_of _ rfl rfl) m hwm) (by simp [Follow]) (red_none rfl m)) ?_
    refine .head (s1 := .tok (.p .colon) :: .ex m.erase :: .tok (.p .lbracket) :: b :: σ) (t1 := l.itoks ++ .p .rbracket :: ts) ?_ ?_
    · cases b <;> rfl
    refine St.trans ((ihl hwl).1 _ _ rfl (weaker_zero (pend_of _ rfl rfl) l hwl) (by simp [Follow]) (red_none rfl l)) ?_
    refine .head (s1 := .tok (.p .rbracket) :: .ex l.erase :: .tok (.p .colon) :: .ex m.erase :: .tok (.p .lbracket) :: b :: σ) (t1 := ts) rfl
      (.head (s1 := .ex (.psel v.erase m.erase l.erase) :: σ) (t1 := ts) ?_ .refl)
    simp [step, stepBracket, hbb]
  | ptr v p ihv ihp =>
    intro hw
    simp only [Ex.WF] at hw
    obtain ⟨hb, hwv, hwp⟩ := hw
    have hbase : PBase (.ptr v p) := by
      intro σ ts hσ
      simp only [Ex.itoks, Ex.erase, List.append_assoc, List.cons_append, List.nil_append]
      obtain ⟨b, hbb, hst⟩ := (ihv hwv).2.1 hb σ (.p .lbracket :: (p.itoks ++ .p .rbracket :: ts)) hσ
      refine ⟨.ptr v.erase p.erase, rfl, St.trans hst (.head (base_shift b _ hbb σ _) ?_)⟩
      have hne : ∀ a, b ≠ .ex a := by rintro a rfl; simp [Sym.base?] at hbb
      refine St.trans ((ihp hwp).1 _ _ rfl (weaker_zero (pend_of _ rfl rfl) p hwp) (by simp [Follow]) (red_none rfl p)) ?_
      refine .head (s1 := .tok (.p .rbracket) :: .ex p.erase :: .tok (.p .lbracket) :: b :: σ) (t1 := ts) ?_
        (.head (s1 := .ptr v.erase p.erase :: σ) (t1 := ts) ?_ .refl)
      · cases b <;> rfl
      · simp [step, stepBracket, hbb]
    refine ⟨fun σ ts hσ _ hf _ => ?_, fun _ => hbase, fun _ h => by simp at h⟩
    obtain ⟨b, hbb, hst⟩ := hbase σ ts hσ
    exact St.trans hst (.head (base_reduce b _ hbb σ ts hf) .refl)
  | concat es ih =>
    intro hw
    simp only [Ex.WF, WFs_iff] at hw
    refine ⟨fun σ ts hσ _ hf _ => ?_, fun h => by simp [Ex.isBase] at h, fun es' h x hx => by
      simp only [Ex.concat.injEq] at h; subst h; exact (ih x hx (hw.2 x hx)).1⟩
    simp only [Ex.itoks, Ex.erase, itokss_eq_map, erases_eq_map, List.append_assoc, List.cons_append, List.nil_append]
    refine .head (shiftCtx σ _ _ hσ (by simp) (by simp)) ?_
    refine St.trans (parse_concat σ ts es (fun e he => ⟨(ih e he (hw.2 e he)).1, hw.2 e he⟩) hw.1) ?_
    refine .head (s1 := .ex (.concat (es.map Ex.erase)) :: σ) (t1 := ts) ?_ .refl
    unfold Ctx at hσ
    split at hσ
    · rfl
    · rfl
    · simp at hσ
  | rep t v iht ihv =>
    intro hw
    simp only [Ex.WF] at hw
    refine ⟨fun σ ts hσ _ hf _ => ?_, fun h => by simp [Ex.isBase] at h, fun _ h => by simp at h⟩
    obtain ⟨hc, hwt, hwv⟩ := hw
    cases v with
    | concat es =>
      have hes : ∀ e ∈ es, PInner e := (ihv hwv).2.2 es rfl
      simp only [Ex.WF, WFs_iff] at hwv
      simp only [Ex.itoks, Ex.erase, itokss_eq_map, erases_eq_map, List.append_assoc, List.cons_append, List.nil_append]
      refine .head (shiftCtx σ _ _ hσ (by simp) (by simp)) ?_
      refine St.trans ((iht hwt).1 _ _ rfl (weaker_zero (pend_of _ rfl rfl) t hwt) (by simp [Follow]) (red_none rfl t)) ?_
      refine .head (s1 := .tok (.p .lbrace) :: .ex t.erase :: .tok (.p .lbrace) :: σ) rfl ?_
      refine St.trans (parse_concat _ _ es (fun e he => ⟨hes e he, hwv.2 e he⟩) hwv.1) ?_
      exact .head (s1 := .tok (.p .rbrace) :: .cat (es.map Ex.erase) :: .ex t.erase :: .tok (.p .lbrace) :: σ) rfl (.head rfl .refl)
    | _ => simp [Ex.isConcat] at hc
  | call f es ih =>
    intro hw
    simp only [Ex.WF, WFs_iff] at hw
    refine ⟨fun σ ts hσ _ hf _ => ?_, fun h => by simp [Ex.isBase] at h, fun _ h => by simp at h⟩
    simp only [Ex.itoks, Ex.erase, wtokss_eq_map, erases_eq_map, List.append_assoc, List.cons_append, List.nil_append]
    refine .head (shiftCtx σ _ _ hσ (by simp) (by simp)) (.head (step_id f σ _ hσ)
      (.head (s1 := .tok (.p .lparen) :: .idn [] f :: σ) rfl ?_))
    refine St.trans (parse_args _ rfl ts es (fun e he => outer_of_inner e (hw.2 e he) (ih e he (hw.2 e he)).1)) ?_
    exact .head rfl .refl
  | sys f es ih =>
    intro hw
    simp only [Ex.WF, WFs_iff] at hw
    refine ⟨fun σ ts hσ _ hf _ => ?_, fun h => by simp [Ex.isBase] at h, fun _ h => by simp at h⟩
    simp only [Ex.itoks, Ex.erase, wtokss_eq_map, erases_eq_map, List.append_assoc, List.cons_append, List.nil_append]
    refine .head (shiftCtx σ _ _ hσ (by simp) (by simp)) ?_
    refine .head (s1 := .tok (if f = "signed".toList then .kw f else .id f) :: .tok (.p .doller) :: σ) rfl ?_
    have hargs := fun (h : callHead (.tok (if f = "signed".toList then .kw f else .id f) :: .tok (.p .doller) :: σ) = true) =>
      parse_args _ h ts es (fun e he => outer_of_inner e (hw.2 e he) (ih e he (hw.2 e he)).1)
    by_cases hf' : f = "signed".toList
    · subst hf'
      rw [if_pos rfl] at hargs ⊢
      have hne : es ≠ [] := by
        rcases hw.1 with h | h
        · rcases h with h | h
          · exact absurd (by decide) h.2
          · obtain ⟨r, hr, _⟩ := h; revert hr; simp
        · exact h.2
      have hlen : es.length > 0 := List.length_pos_iff.mpr hne
      simp only [if_pos hlen, List.cons_append, List.append_assoc, List.nil_append]
      refine .head (s1 := .tok (.p .lparen) :: .tok (.kw "signed".toList) :: .tok (.p .doller) :: σ) rfl ?_
      refine St.trans (hargs rfl) (.head (s1 := .ex (.sys "signed".toList (es.map Ex.erase)) :: σ) (t1 := ts) ?_ .refl)
      simp [step, stepParen]
    · rw [if_neg hf'] at hargs ⊢
      cases es with
      | nil =>
        refine .head (s1 := .ex (.sys f []) :: σ) (t1 := ts) ?_ .refl
        have := hf.2.2
        simp only [step, List.length_nil, gt_iff_lt, Nat.lt_irrefl, if_false, List.nil_append]
        rw [if_neg this]
      | cons e es =>
        simp only [List.length_cons, gt_iff_lt, Nat.zero_lt_succ, if_true, List.cons_append, List.append_assoc, List.nil_append]
        refine .head (s1 := .tok (.p .lparen) :: .tok (.id f) :: .tok (.p .doller) :: σ)
          (t1 := commaT ((e :: es).map Ex.toks) ++ .p .rparen :: ts) ?_ ?_
        · simp [step, shift]
        · exact St.trans (hargs rfl) (.head rfl .refl)

end Pyv
