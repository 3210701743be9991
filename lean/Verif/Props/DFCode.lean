import Verif.Props.CodegenProps
import Verif.Props.StoresProps
import Verif.DF
/-
  C63: the text printed for a dataflow tree (`tocode`) is read back by the parser as the expression the tree stands for.
-/
namespace Pyv

/-! ## Specification -/

/-- The Verilog spelling of a constant with a width: nothing is written for width 32 (dataflow.py:497), otherwise the
width in decimal. -/
def WidthText (w : Option Int) (s : Str) : Prop := (w = some 32 ∧ s = []) ∨ ∃ n : Nat, n ≠ 32 ∧ w = some (n : Int) ∧ s = natStr n

/-- `Means D t e`: the dataflow tree `t` stands for the Verilog expression `e`.  `D` is the expression of the destination,
which a branch without a value leaves unchanged (`none`: there is no destination). -/
inductive Means (D : Option Ex) : DF → Ex → Prop
  | term (n : ScopeChain) : Means D (.term n) (.ident [] n.tocode)
  | intc (s : Str) : Means D (.intc s) (.intc s)
  | fltc (s : Str) : Means D (.fltc s) (.fltc s)
  | pos (n : Nat) (w : Option Int) (ws : Str) (b : Bool) : WidthText w ws →
      Means D (.ev (.int n) w b false) (.intc (ws ++ '\'' :: 'd' :: natStr n))
  | neg (n : Nat) (w : Option Int) (ws : Str) (b : Bool) : WidthText w ws →
      Means D (.ev (.int (-(n + 1 : Nat))) w b false) (.un .uminus (.intc (ws ++ '\'' :: 'd' :: natStr (n + 1))))
  | undef (w : Option Int) (ws : Str) : WidthText w ws → Means D (.undef w) (.intc (ws ++ "'dx".toList))
  | hiz (w : Option Int) (ws : Str) : WidthText w ws → Means D (.hiz w) (.intc (ws ++ "'dz".toList))
  | un (o : Op) (a : DF) (a' : Ex) : Means D a a' → Means D (.op o [a]) (.un o a')
  | bin (o : Op) (a b : DF) (a' b' : Ex) : Means D a a' → Means D b b' → Means D (.op o [a, b]) (.bin o a' b')
  | psel (v m l : DF) (v' m' l' : Ex) : Means D v v' → Means D m m' → Means D l l' → m' ≠ l' →
      Means D (.psel v m l) (.psel v' m' l')
  | bit (v m l : DF) (v' m' : Ex) : Means D v v' → Means D m m' → Means D l m' → Means D (.psel v m l) (.ptr v' m')
  | ptr (v p : DF) (v' p' : Ex) : Means D v v' → Means D p p' → Means D (.ptr v p) (.ptr v' p')
  | concat (ns : List DF) (es : List Ex) : List.Forall₂ (Means D) ns es → Means D (.concat ns) (.concat es)
  | branch (c t f : DF) (c' t' f' : Ex) : Means D c c' → Means D t t' → Means D f f' →
      Means D (.branch c t f) (.cond c' t' f')
  | keepT (c f : DF) (c' d f' : Ex) : D = some d → Means D c c' → Means D f f' →
      Means D (.branch c .none f) (.cond c' d f')
  | keepF (c t : DF) (c' t' d : Ex) : D = some d → Means D c c' → Means D t t' →
      Means D (.branch c t .none) (.cond c' t' d)
  | keep (c : DF) (c' d : Ex) : D = some d → Means D c c' → Means D (.branch c .none .none) (.cond c' d d)
  | sys (s : Str) (ns : List DF) (es : List Ex) : List.Forall₂ (Means D) ns es → Means D (.sys s ns) (.sys s es)

mutual
/-- Expressions whose names and literals are spelt as Verilog requires, whose operators have their arity, which index
only names and array elements, and in which no concatenation or call is empty. -/
def Ex.Plain : Ex → Prop
  | .ident sc n => sc = [] ∧ PlainId n
  | .intc s => IntLit s
  | .fltc s => FloatLit s
  | .un o e => o.unary = true ∧ e.Plain
  | .bin o a b => o.unary = false ∧ a.Plain ∧ b.Plain
  | .cond c t f => c.Plain ∧ t.Plain ∧ f.Plain
  | .psel v m l => v.isBase = true ∧ v.Plain ∧ m.Plain ∧ l.Plain
  | .ptr v p => v.isBase = true ∧ v.Plain ∧ p.Plain
  | .concat es => es ≠ [] ∧ Ex.Plains es
  | .sys f es => (PlainId f ∨ f = "signed".toList) ∧ es ≠ [] ∧ Ex.Plains es
  | _ => False
/-- `Ex.Plain` on lists. -/
def Ex.Plains : List Ex → Prop
  | [] => True
  | e :: es => e.Plain ∧ Ex.Plains es
end

/-! ## The text as a function of the expression -/

/-- The items with a comma after each but the last. -/
def tightSep : List Str → Str
  | [] => []
  | [s] => s
  | s :: t :: r => s ++ ',' :: tightSep (t :: r)

mutual
/-- What `tocode` prints. -/
def Ex.dcode : Ex → Str
  | .ident _ n => n
  | .intc s => s
  | .fltc s => s
  | .un o e => '(' :: (o.mark ++ (e.dcode ++ [')']))
  | .bin o a b => '(' :: (a.dcode ++ (o.mark ++ (b.dcode ++ [')'])))
  | .cond c t f => '(' :: '(' :: (c.dcode ++ (')' :: '?' :: ' ' :: (t.dcode ++ (' ' :: ':' :: ' ' :: (f.dcode ++ [')'])))))
  | .psel v m l => v.dcode ++ '[' :: (m.dcode ++ ':' :: (l.dcode ++ [']']))
  | .ptr v p => v.dcode ++ '[' :: (p.dcode ++ [']'])
  | .concat es => '{' :: (tightSep (Ex.dcodes es) ++ ['}'])
  | .sys f es => '$' :: (f ++ '(' :: (tightSep (Ex.dcodes es) ++ [')']))
  | _ => []
/-- `Ex.dcode` on lists. -/
def Ex.dcodes : List Ex → List Str
  | [] => []
  | e :: es => e.dcode :: Ex.dcodes es
end

theorem dcodes_eq_map (es : List Ex) : Ex.dcodes es = es.map Ex.dcode := by
  induction es with
  | nil => rfl
  | cons e es ih => simp [Ex.dcodes, ih]
theorem plains_iff (es : List Ex) : Ex.Plains es ↔ ∀ e ∈ es, e.Plain := by
  induction es with
  | nil => simp [Ex.Plains]
  | cons e es ih => simp [Ex.Plains, ih]

mutual
/-- The tokens of the text. -/
def Ex.dtoks : Ex → List Tok
  | .ident _ n => [.id n]
  | .intc s => [.int s]
  | .fltc s => [.flt s]
  | .un o e => .p .lparen :: .p o.pun :: (e.dtoks ++ [.p .rparen])
  | .bin o a b => .p .lparen :: (a.dtoks ++ .p o.pun :: (b.dtoks ++ [.p .rparen]))
  | .cond c t f => .p .lparen :: .p .lparen :: (c.dtoks ++ .p .rparen :: .p .cond ::
      (t.dtoks ++ .p .colon :: (f.dtoks ++ [.p .rparen])))
  | .psel v m l => v.dtoks ++ .p .lbracket :: (m.dtoks ++ .p .colon :: (l.dtoks ++ [.p .rbracket]))
  | .ptr v p => v.dtoks ++ .p .lbracket :: (p.dtoks ++ [.p .rbracket])
  | .concat es => .p .lbrace :: (commaT (Ex.dtokss es) ++ [.p .rbrace])
  | .sys f es => .p .doller :: (if f = "signed".toList then .kw f else .id f) :: .p .lparen ::
      (commaT (Ex.dtokss es) ++ [.p .rparen])
  | _ => []
/-- `Ex.dtoks` on lists. -/
def Ex.dtokss : List Ex → List (List Tok)
  | [] => []
  | e :: es => e.dtoks :: Ex.dtokss es
end

theorem dtokss_eq_map (es : List Ex) : Ex.dtokss es = es.map Ex.dtoks := by
  induction es with
  | nil => rfl
  | cons e es ih => simp [Ex.dtokss, ih]

theorem tight_lexP : ∀ (cs : List Str) (Ts : List (List Tok)),
    List.Forall₂ (fun c T => LexP c T) cs Ts → LexP (tightSep cs) (commaT Ts) := by
  intro cs
  induction cs with
  | nil => intro Ts h; cases h; intro r ts _ hl; exact hl
  | cons c cs ih =>
    intro Ts h
    cases h with
    | cons h1 h2 =>
      cases h2 with
      | nil => exact h1
      | @cons d T cs' Ts' h3 h4 =>
        have ih' := ih _ (List.Forall₂.cons h3 h4)
        intro r ts hr hl
        simp only [tightSep, commaT, List.append_assoc, List.cons_append]
        exact h1 _ _ (Delim.cons _ (by decide)) (Lx.ch .comma ',' rfl rfl (ih' r ts hr hl))

/-- The first character of the text. -/
theorem dcode_head (e : Ex) : e.Plain → ∃ c t, e.dcode = c :: t ∧ OpStart c := by
  induction e using Ex.ind with
  | ident sc n =>
    intro h
    simp only [Ex.Plain] at h
    obtain ⟨c, t, he, hc, _⟩ := (show IsName n from Or.inl h.2).code_head
    rw [escape_plain h.2.head] at he
    exact ⟨c, t, by simp only [Ex.dcode, he], hc⟩
  | intc s =>
    intro h; simp only [Ex.Plain] at h
    obtain ⟨c, t, he, hc, _⟩ := h.code_head
    exact ⟨c, t, by simp only [Ex.dcode, he], hc⟩
  | fltc s =>
    intro h; simp only [Ex.Plain] at h
    obtain ⟨c, t, he, hc, _⟩ := h.code_head
    exact ⟨c, t, by simp only [Ex.dcode, he], hc⟩
  | un o e _ => intro _; exact ⟨'(', _, by simp only [Ex.dcode]; rfl, Or.inr (Or.inr (by decide))⟩
  | bin o a b _ _ => intro _; exact ⟨'(', _, by simp only [Ex.dcode]; rfl, Or.inr (Or.inr (by decide))⟩
  | cond c t f _ _ _ => intro _; exact ⟨'(', _, by simp only [Ex.dcode]; rfl, Or.inr (Or.inr (by decide))⟩
  | psel v m l ihv _ _ =>
    intro h; simp only [Ex.Plain] at h
    obtain ⟨c, t, he, hc⟩ := ihv h.2.1
    exact ⟨c, _, by simp only [Ex.dcode, he, List.cons_append]; rfl, hc⟩
  | ptr v p ihv _ =>
    intro h; simp only [Ex.Plain] at h
    obtain ⟨c, t, he, hc⟩ := ihv h.2.1
    exact ⟨c, _, by simp only [Ex.dcode, he, List.cons_append]; rfl, hc⟩
  | concat es _ => intro _; exact ⟨'{', _, by simp only [Ex.dcode]; rfl, Or.inr (Or.inr (by decide))⟩
  | sys f es _ => intro _; exact ⟨'$', _, by simp only [Ex.dcode]; rfl, Or.inr (Or.inr (by decide))⟩
  | _ => intro h; simp [Ex.Plain] at h

/-- An operator in front of an operand. -/
theorem Lx.op (o : Op) {e : Ex} (h : e.Plain) {r : Str} {ts : List Tok} (hl : Lx (e.dcode ++ r) ts) :
    Lx (o.mark ++ (e.dcode ++ r)) (.p o.pun :: ts) := by
  rw [← o.pun_text]
  refine Lx.pun o.pun ?_ hl
  intro c hc
  obtain ⟨d, t, h1, h2⟩ := dcode_head e h
  rw [h1] at hc
  simp at hc; subst hc
  exact h2.cont o

theorem Delim.mark (o : Op) (r : Str) : Delim (o.mark ++ r) := by
  have := Delim.spc_pun false o r
  rw [o.pun_text] at this
  exact this

theorem dcode_lexP (e : Ex) : e.Plain → LexP e.dcode e.dtoks := by
  induction e using Ex.ind with
  | ident sc n =>
    intro h r ts hr hl
    simp only [Ex.Plain] at h
    have := (show IsName n from Or.inl h.2).lexP true (by simp) hr.id hl
    rw [sq_true, escape_plain h.2.head] at this
    exact this
  | intc s =>
    intro h
    have := code_lexP (.intc s) true (by simp only [Ex.Plain] at h; simpa only [Ex.WF] using h) (by simp)
    rw [sq_true, rcode_unwrapped _ (by simp only [Ex.Plain] at h; simpa only [Ex.WF] using h) rfl] at this
    exact this
  | fltc s =>
    intro h
    have := code_lexP (.fltc s) true (by simp only [Ex.Plain] at h; simpa only [Ex.WF] using h) (by simp)
    rw [sq_true, rcode_unwrapped _ (by simp only [Ex.Plain] at h; simpa only [Ex.WF] using h) rfl] at this
    exact this
  | un o e ih =>
    intro h r ts hr hl
    simp only [Ex.Plain] at h
    simp only [Ex.dcode, Ex.dtoks, List.append_assoc, List.cons_append, List.nil_append]
    exact Lx.ch .lparen '(' rfl rfl (Lx.op o h.2 (ih h.2 _ _ (Delim.cons _ (by decide)) (Lx.ch .rparen ')' rfl rfl hl)))
  | bin o a b iha ihb =>
    intro h r ts hr hl
    simp only [Ex.Plain] at h
    simp only [Ex.dcode, Ex.dtoks, List.append_assoc, List.cons_append, List.nil_append]
    exact Lx.ch .lparen '(' rfl rfl (iha h.2.1 _ _ (Delim.mark o _) (Lx.op o h.2.2
      (ihb h.2.2 _ _ (Delim.cons _ (by decide)) (Lx.ch .rparen ')' rfl rfl hl))))
  | cond c t f ihc iht ihf =>
    intro h r ts hr hl
    simp only [Ex.Plain] at h
    simp only [Ex.dcode, Ex.dtoks, List.append_assoc, List.cons_append, List.nil_append]
    exact Lx.ch .lparen '(' rfl rfl (Lx.ch .lparen '(' rfl rfl (ihc h.1 _ _ (Delim.cons _ (by decide))
      (Lx.ch .rparen ')' rfl rfl (Lx.ch .cond '?' rfl rfl (Lx.spc true (iht h.2.1 _ _ (Delim.cons _ (by decide))
        (Lx.spc true (Lx.ch .colon ':' rfl rfl (Lx.spc true (ihf h.2.2 _ _ (Delim.cons _ (by decide))
          (Lx.ch .rparen ')' rfl rfl hl)))))))))))
  | psel v m l ihv ihm ihl =>
    intro h r ts hr hl
    simp only [Ex.Plain] at h
    simp only [Ex.dcode, Ex.dtoks, List.append_assoc, List.cons_append, List.nil_append]
    exact ihv h.2.1 _ _ (Delim.cons _ (by decide)) (Lx.ch .lbracket '[' rfl rfl (ihm h.2.2.1 _ _ (Delim.cons _ (by decide))
      (Lx.ch .colon ':' rfl rfl (ihl h.2.2.2 _ _ (Delim.cons _ (by decide)) (Lx.ch .rbracket ']' rfl rfl hl)))))
  | ptr v p ihv ihp =>
    intro h r ts hr hl
    simp only [Ex.Plain] at h
    simp only [Ex.dcode, Ex.dtoks, List.append_assoc, List.cons_append, List.nil_append]
    exact ihv h.2.1 _ _ (Delim.cons _ (by decide)) (Lx.ch .lbracket '[' rfl rfl (ihp h.2.2 _ _ (Delim.cons _ (by decide))
      (Lx.ch .rbracket ']' rfl rfl hl)))
  | concat es ih =>
    intro h r ts hr hl
    simp only [Ex.Plain, plains_iff] at h
    simp only [Ex.dcode, Ex.dtoks, List.append_assoc, List.cons_append, List.nil_append]
    have hc : LexP (tightSep (Ex.dcodes es)) (commaT (Ex.dtokss es)) := by
      apply tight_lexP
      rw [dcodes_eq_map, dtokss_eq_map, List.forall₂_map_left_iff, List.forall₂_map_right_iff]
      exact List.forall₂_same.mpr (fun e he => ih e he (h.2 e he))
    exact Lx.ch .lbrace '{' rfl rfl (hc _ _ (Delim.cons _ (by decide)) (Lx.ch .rbrace '}' rfl rfl hl))
  | sys f es ih =>
    intro h r ts hr hl
    simp only [Ex.Plain, plains_iff] at h
    simp only [Ex.dcode, Ex.dtoks, List.append_assoc, List.cons_append, List.nil_append]
    have hc : LexP (tightSep (Ex.dcodes es)) (commaT (Ex.dtokss es)) := by
      apply tight_lexP
      rw [dcodes_eq_map, dtokss_eq_map, List.forall₂_map_left_iff, List.forall₂_map_right_iff]
      exact List.forall₂_same.mpr (fun e he => ih e he (h.2.2 e he))
    have hR := Lx.ch .lparen '(' rfl rfl (hc _ _ (Delim.cons r (by decide)) (Lx.ch .rparen ')' rfl rfl hl))
    have hid : ∀ c, ('(' :: (tightSep (Ex.dcodes es) ++ ')' :: r)).head? = some c → isIdChar c = false := by
      intro c hc'
      have : '(' = c := by simpa using hc'
      subst this; decide
    refine Lx.ch .doller '$' rfl rfl ?_
    by_cases hf : f = "signed".toList
    · subst hf
      rw [if_pos rfl]
      exact Lx.tok (by decide) (lexTok_signed _ hid) hR
    · rw [if_neg hf]
      have hn : PlainId f := h.1.resolve_right hf
      have := (show IsName f from Or.inl hn).lexP true (by simp) hid hR
      rwa [sq_true, escape_plain hn.head] at this
  | _ => intro h; simp [Ex.Plain] at h

/-! ## Parsing the tokens -/

/-- The tokens `T` are reduced to the expression `e`. -/
def PD (T : List Tok) (e : Ex) : Prop := ∀ (σ : List Sym) (ts : List Tok), Ctx σ = true → Follow ts →
  St σ (T ++ ts) (.ex e :: σ) ts

theorem pd_items (σ : List Sym) (ts : List Tok) : ∀ (es : List Ex) (done : List Ex),
    (∀ e ∈ es, PD e.dtoks e) → es ≠ [] →
    St (.tok (.p .comma) :: .cl done :: .tok (.p .lbrace) :: σ) (commaT (es.map Ex.dtoks) ++ .p .rbrace :: ts)
      (.cl (done ++ es) :: .tok (.p .lbrace) :: σ) (.p .rbrace :: ts) := by
  intro es
  induction es with
  | nil => intro _ _ h; exact absurd rfl h
  | cons e es ih =>
    intro done hes _
    have he := hes e (by simp)
    have hstep : ∀ la ts', Tok.infix? (some la) = none →
        step (.ex e :: .tok (.p .comma) :: .cl done :: .tok (.p .lbrace) :: σ) (la :: ts') =
        some (.cl (done ++ [e]) :: .tok (.p .lbrace) :: σ, la :: ts') := by
      intro la ts' hla
      simp [step, stepEx, hla]
    cases es with
    | nil =>
      refine St.trans (he _ _ rfl (by simp [Follow])) ?_
      exact .head (hstep _ _ rfl) (by simpa using St.refl)
    | cons e2 es =>
      simp only [List.map_cons, commaT, List.append_assoc, List.cons_append]
      refine St.trans (he _ _ rfl (by simp [Follow])) ?_
      refine .head (hstep _ _ rfl) (.head (s1 := .tok (.p .comma) :: .cl (done ++ [e]) :: .tok (.p .lbrace) :: σ) rfl ?_)
      have := ih (done ++ [e]) (fun x hx => hes x (by simp at hx ⊢; tauto)) (by simp)
      simpa [commaT] using this

theorem pd_concat (σ : List Sym) (ts : List Tok) (es : List Ex) (hes : ∀ e ∈ es, PD e.dtoks e) (hne : es ≠ []) :
    St (.tok (.p .lbrace) :: σ) (commaT (es.map Ex.dtoks) ++ .p .rbrace :: ts) (.cat es :: σ) ts := by
  have hend : ∀ xs : List Ex, St (.cl xs :: .tok (.p .lbrace) :: σ) (.p .rbrace :: ts) (.cat xs :: σ) ts := by
    intro xs
    exact .head (s1 := .tok (.p .rbrace) :: .cl xs :: .tok (.p .lbrace) :: σ) rfl (.head rfl .refl)
  cases es with
  | nil => exact absurd rfl hne
  | cons e es =>
    have he := hes e (by simp)
    cases es with
    | nil =>
      refine St.trans (he _ _ rfl (by simp [Follow])) ?_
      exact .head (s1 := .cl [e] :: .tok (.p .lbrace) :: σ) rfl (hend _)
    | cons e2 es =>
      simp only [List.map_cons, commaT, List.append_assoc, List.cons_append]
      refine St.trans (he _ _ rfl (by simp [Follow])) ?_
      refine .head (s1 := .cl [e] :: .tok (.p .lbrace) :: σ) rfl
        (.head (s1 := .tok (.p .comma) :: .cl [e] :: .tok (.p .lbrace) :: σ) rfl ?_)
      have := pd_items σ ts (e2 :: es) [e] (fun x hx => hes x (by simp at hx ⊢; tauto)) (by simp)
      exact St.trans this (hend _)

theorem pd_args_more (σ : List Sym) (ts : List Tok) : ∀ (es : List Ex) (done : List Ex),
    (∀ e ∈ es, PD e.dtoks e) → es ≠ [] →
    St (.tok (.p .comma) :: .args done :: .tok (.p .lparen) :: σ) (commaT (es.map Ex.dtoks) ++ .p .rparen :: ts)
      (.args (done ++ es) :: .tok (.p .lparen) :: σ) (.p .rparen :: ts) := by
  intro es
  induction es with
  | nil => intro _ _ h; exact absurd rfl h
  | cons e es ih =>
    intro done hes _
    have he := hes e (by simp)
    have hstep : ∀ la ts', Tok.infix? (some la) = none →
        step (.ex e :: .tok (.p .comma) :: .args done :: .tok (.p .lparen) :: σ) (la :: ts') =
        some (.args (done ++ [e]) :: .tok (.p .lparen) :: σ, la :: ts') := by
      intro la ts' hla
      simp [step, stepEx, hla]
    cases es with
    | nil =>
      refine St.trans (he _ _ rfl (by simp [Follow])) ?_
      exact .head (hstep _ _ rfl) (by simpa using St.refl)
    | cons e2 es =>
      simp only [List.map_cons, commaT, List.append_assoc, List.cons_append]
      refine St.trans (he _ _ rfl (by simp [Follow])) ?_
      refine .head (hstep _ _ rfl) (.head (s1 := .tok (.p .comma) :: .args (done ++ [e]) :: .tok (.p .lparen) :: σ) rfl ?_)
      have := ih (done ++ [e]) (fun x hx => hes x (by simp at hx ⊢; tauto)) (by simp)
      simpa [commaT] using this

theorem pd_args (σ : List Sym) (hc : callHead σ = true) (ts : List Tok) (es : List Ex) (hes : ∀ e ∈ es, PD e.dtoks e)
    (hne : es ≠ []) :
    St (.tok (.p .lparen) :: σ) (commaT (es.map Ex.dtoks) ++ .p .rparen :: ts)
      (.tok (.p .rparen) :: .args es :: .tok (.p .lparen) :: σ) ts := by
  have hone : ∀ e : Ex, ∀ la ts', la = .p .rparen ∨ la = .p .comma →
      step (.ex e :: .tok (.p .lparen) :: σ) (la :: ts') = some (.args [e] :: .tok (.p .lparen) :: σ, la :: ts') := by
    intro e la ts' hla
    have hne : ∀ a st, σ ≠ .ex a :: st := by rintro a st rfl; simp [callHead] at hc
    cases σ with
    | nil => simp [callHead] at hc
    | cons x σ =>
      cases x with
      | ex a => exact absurd rfl (hne a σ)
      | _ => simp [step, stepEx, hc, hla]
  cases es with
  | nil => exact absurd rfl hne
  | cons e es =>
    have he := hes e (by simp)
    cases es with
    | nil =>
      refine St.trans (he _ _ rfl (by simp [Follow])) ?_
      exact .head (hone _ _ _ (Or.inl rfl)) (.head rfl .refl)
    | cons e2 es =>
      simp only [List.map_cons, commaT, List.append_assoc, List.cons_append]
      refine St.trans (he _ _ rfl (by simp [Follow])) ?_
      refine .head (hone _ _ _ (Or.inr rfl)) (.head (s1 := .tok (.p .comma) :: .args [e] :: .tok (.p .lparen) :: σ) rfl ?_)
      have := pd_args_more σ ts (e2 :: es) [e] (fun x hx => hes x (by simp at hx ⊢; tauto)) (by simp)
      exact St.trans this (.head rfl .refl)

/-- The closing parenthesis around an expression. -/
theorem close_paren (e : Ex) (σ : List Sym) (hσ : Ctx σ = true) (ts : List Tok) :
    St (.ex e :: .tok (.p .lparen) :: σ) (.p .rparen :: ts) (.ex e :: σ) ts := by
  have hc := ctx_callHead hσ
  refine .head (s1 := .tok (.p .rparen) :: .ex e :: .tok (.p .lparen) :: σ) (t1 := ts) ?_
    (.head (s1 := .ex e :: σ) (t1 := ts) ?_ .refl)
  · cases σ with
    | nil => rfl
    | cons x σ => cases x <;> first | rfl | simp [step, stepEx, hc, shift]
  · simp [step, stepParen, hc]

theorem ctx_lparen (σ : List Sym) : Ctx (.tok (.p .lparen) :: σ) = true := rfl

theorem dtoks_parse (e : Ex) : e.Plain → PD e.dtoks e ∧
    (e.isBase = true → ∀ (σ : List Sym) (ts : List Tok), Ctx σ = true →
      ∃ b, Sym.base? b = some e ∧ St σ (e.dtoks ++ ts) (b :: σ) ts) := by
  induction e using Ex.ind with
  | ident sc n =>
    intro h
    simp only [Ex.Plain] at h
    obtain ⟨rfl, _⟩ := h
    have hb : ∀ (σ : List Sym) (ts : List Tok), Ctx σ = true → St σ ([Tok.id n] ++ ts) (.idn [] n :: σ) ts :=
      fun σ ts hσ => parse_ident [] n σ ts hσ
    refine ⟨fun σ ts hσ hf => ?_, fun _ σ ts hσ => ⟨.idn [] n, rfl, by simpa only [Ex.dtoks] using hb σ ts hσ⟩⟩
    simp only [Ex.dtoks]
    exact St.trans (hb σ ts hσ) (.head (base_reduce (.idn [] n) _ rfl σ ts hf) .refl)
  | intc s =>
    intro _
    refine ⟨fun σ ts hσ hf => ?_, fun h => by simp [Ex.isBase] at h⟩
    simp only [Ex.dtoks]
    exact .head (shiftCtx σ _ _ hσ (by simp) (by simp)) (.head rfl .refl)
  | fltc s =>
    intro _
    refine ⟨fun σ ts hσ hf => ?_, fun h => by simp [Ex.isBase] at h⟩
    simp only [Ex.dtoks]
    exact .head (shiftCtx σ _ _ hσ (by simp) (by simp)) (.head rfl .refl)
  | un o e ih =>
    intro h
    simp only [Ex.Plain] at h
    refine ⟨fun σ ts hσ hf => ?_, fun h => by simp [Ex.isBase] at h⟩
    simp only [Ex.dtoks, List.cons_append, List.append_assoc, List.nil_append]
    refine .head (shiftCtx σ _ _ hσ (by simp) (by simp)) (.head (shiftCtx _ _ _ (ctx_lparen σ) (pun_ne o).1 (pun_ne o).2) ?_)
    exact St.trans ((ih h.2).1 _ _ (ctx_pun o _) (by simp [Follow])) (.head (stepEx_un _ o h.1 _ (ctx_lparen σ) _)
      (close_paren _ σ hσ ts))
  | bin o a b iha ihb =>
    intro h
    simp only [Ex.Plain] at h
    refine ⟨fun σ ts hσ hf => ?_, fun h => by simp [Ex.isBase] at h⟩
    simp only [Ex.dtoks, List.cons_append, List.append_assoc, List.nil_append]
    refine .head (shiftCtx σ _ _ hσ (by simp) (by simp)) ?_
    refine St.trans ((iha h.2.1).1 _ _ (ctx_lparen σ) (follow_pun o _)) ?_
    refine .head (shift_infix _ _ _ _ _ (infix_pun o h.1) (Or.inr (pend_of σ rfl rfl))) ?_
    refine St.trans ((ihb h.2.2).1 _ _ (ctx_pun o _) (by simp [Follow])) (.head (stepEx_bin _ _ o h.1 _ _ rfl) ?_)
    exact close_paren _ σ hσ ts
  | cond c t f ihc iht ihf =>
    intro h
    simp only [Ex.Plain] at h
    refine ⟨fun σ ts hσ hf => ?_, fun h => by simp [Ex.isBase] at h⟩
    simp only [Ex.dtoks, List.cons_append, List.append_assoc, List.nil_append]
    refine .head (shiftCtx σ _ _ hσ (by simp) (by simp)) (.head (shiftCtx _ _ _ (ctx_lparen σ) (by simp) (by simp)) ?_)
    refine St.trans ((ihc h.1).1 _ _ (ctx_lparen _) (by simp [Follow])) (St.trans (close_paren _ _ (ctx_lparen σ) _) ?_)
    refine .head (shift_infix _ _ _ _ 0 rfl (Or.inr (pend_of σ rfl rfl))) ?_
    refine St.trans ((iht h.2.1).1 _ _ rfl (by simp [Follow])) ?_
    refine .head (s1 := .tok (.p .colon) :: .ex t :: .tok (.p .cond) :: .ex c :: .tok (.p .lparen) :: σ) rfl ?_
    refine St.trans ((ihf h.2.2).1 _ _ rfl (by simp [Follow])) ?_
    exact .head (s1 := .ex (.cond c t f) :: .tok (.p .lparen) :: σ) rfl (close_paren _ σ hσ ts)
  | psel v m l ihv ihm ihl =>
    intro h
    simp only [Ex.Plain] at h
    refine ⟨fun σ ts hσ hf => ?_, fun h => by simp [Ex.isBase] at h⟩
    simp only [Ex.dtoks, List.cons_append, List.append_assoc, List.nil_append]
    obtain ⟨b, hbb, hst⟩ := (ihv h.2.1).2 h.1 σ (.p .lbracket :: (m.dtoks ++ .p .colon :: (l.dtoks ++ .p .rbracket :: ts))) hσ
    refine St.trans hst (.head (base_shift b _ hbb σ _) ?_)
    have hne : ∀ a, b ≠ .ex a := by rintro a rfl; simp [Sym.base?] at hbb
    refine St.trans ((ihm h.2.2.1).1 _ _ rfl (by simp [Follow])) ?_
    refine .head (s1 := .tok (.p .colon) :: .ex m :: .tok (.p .lbracket) :: b :: σ) (t1 := l.dtoks ++ .p .rbracket :: ts) ?_ ?_
    · cases b <;> rfl
    refine St.trans ((ihl h.2.2.2).1 _ _ rfl (by simp [Follow])) ?_
    refine .head (s1 := .tok (.p .rbracket) :: .ex l :: .tok (.p .colon) :: .ex m :: .tok (.p .lbracket) :: b :: σ) (t1 := ts) rfl
      (.head (s1 := .ex (.psel v m l) :: σ) (t1 := ts) ?_ .refl)
    simp [step, stepBracket, hbb]
  | ptr v p ihv ihp =>
    intro h
    simp only [Ex.Plain] at h
    have hbase : ∀ (σ : List Sym) (ts : List Tok), Ctx σ = true →
        St σ ((Ex.ptr v p).dtoks ++ ts) (.ptr v p :: σ) ts := by
      intro σ ts hσ
      simp only [Ex.dtoks, List.cons_append, List.append_assoc, List.nil_append]
      obtain ⟨b, hbb, hst⟩ := (ihv h.2.1).2 h.1 σ (.p .lbracket :: (p.dtoks ++ .p .rbracket :: ts)) hσ
      refine St.trans hst (.head (base_shift b _ hbb σ _) ?_)
      have hne : ∀ a, b ≠ .ex a := by rintro a rfl; simp [Sym.base?] at hbb
      refine St.trans ((ihp h.2.2).1 _ _ rfl (by simp [Follow])) ?_
      refine .head (s1 := .tok (.p .rbracket) :: .ex p :: .tok (.p .lbracket) :: b :: σ) (t1 := ts) ?_
        (.head (s1 := .ptr v p :: σ) (t1 := ts) ?_ .refl)
      · cases b <;> rfl
      · simp [step, stepBracket, hbb]
    refine ⟨fun σ ts hσ hf => ?_, fun _ σ ts hσ => ⟨.ptr v p, rfl, hbase σ ts hσ⟩⟩
    exact St.trans (hbase σ ts hσ) (.head (base_reduce (.ptr v p) _ rfl σ ts hf) .refl)
  | concat es ih =>
    intro h
    simp only [Ex.Plain, plains_iff] at h
    refine ⟨fun σ ts hσ hf => ?_, fun h => by simp [Ex.isBase] at h⟩
    simp only [Ex.dtoks, dtokss_eq_map, List.cons_append, List.append_assoc, List.nil_append]
    refine .head (shiftCtx σ _ _ hσ (by simp) (by simp)) ?_
    refine St.trans (pd_concat σ ts es (fun e he => (ih e he (h.2 e he)).1) h.1) ?_
    refine .head (s1 := .ex (.concat es) :: σ) (t1 := ts) ?_ .refl
    unfold Ctx at hσ
    split at hσ
    · rfl
    · rfl
    · simp at hσ
  | sys f es ih =>
    intro h
    simp only [Ex.Plain, plains_iff] at h
    refine ⟨fun σ ts hσ hf => ?_, fun h => by simp [Ex.isBase] at h⟩
    simp only [Ex.dtoks, dtokss_eq_map, List.cons_append, List.append_assoc, List.nil_append]
    refine .head (shiftCtx σ _ _ hσ (by simp) (by simp)) ?_
    refine .head (s1 := .tok (if f = "signed".toList then .kw f else .id f) :: .tok (.p .doller) :: σ) rfl ?_
    have hargs := fun (hh : callHead (.tok (if f = "signed".toList then .kw f else .id f) :: .tok (.p .doller) :: σ) = true) =>
      pd_args _ hh ts es (fun e he => (ih e he (h.2.2 e he)).1) h.2.1
    by_cases hf' : f = "signed".toList
    · subst hf'
      rw [if_pos rfl] at hargs ⊢
      refine .head (s1 := .tok (.p .lparen) :: .tok (.kw "signed".toList) :: .tok (.p .doller) :: σ) rfl ?_
      refine St.trans (hargs rfl) (.head (s1 := .ex (.sys "signed".toList es) :: σ) (t1 := ts) ?_ .refl)
      simp [step, stepParen]
    · rw [if_neg hf'] at hargs ⊢
      refine .head (s1 := .tok (.p .lparen) :: .tok (.id f) :: .tok (.p .doller) :: σ)
        (t1 := commaT (es.map Ex.dtoks) ++ .p .rparen :: ts) ?_ ?_
      · simp [step, shift]
      · exact St.trans (hargs rfl) (.head rfl .refl)
  | _ => intro h; simp [Ex.Plain] at h

theorem dcode_parses (e : Ex) (h : e.Plain) : ParsesTo e.dcode e := by
  refine ⟨e.dtoks, (dcode_lexP e h).toLex, ?_⟩
  have := (dtoks_parse e h).1 [] [] rfl (by simp [Follow])
  rw [List.append_nil] at this
  exact this.parse

/-! ## The text of a tree -/

theorem widthText_eq {w : Option Int} {ws : Str} (h : WidthText w ws) : widthStr w = ws := by
  rcases h with ⟨rfl, rfl⟩ | ⟨n, hn, rfl, rfl⟩
  · rfl
  · have h32 : (n : Int) ≠ 32 := by omega
    unfold widthStr
    split
    · next h => simp only [Option.some.injEq] at h; exact absurd h h32
    · next h => simp only [Option.some.injEq] at h; subst h; unfold intStr; rw [if_neg (by omega)]; simp
    · next h => simp at h

theorem dropLast_flatten_comma : ∀ (cs : List Str) (p : Str), cs ≠ [] →
    (p ++ (cs.map (· ++ ",".toList)).flatten).dropLast = p ++ tightSep cs := by
  intro cs
  induction cs with
  | nil => intro p h; exact absurd rfl h
  | cons c cs ih =>
    intro p _
    cases cs with
    | nil =>
      simp only [List.map_cons, List.map_nil, List.flatten_cons, List.flatten_nil, List.append_nil, tightSep]
      have : p ++ (c ++ ",".toList) = (p ++ c) ++ [','] := by simp
      rw [this, List.dropLast_concat]
    | cons d cs =>
      have := ih (p ++ c ++ [',']) (by simp)
      simp only [List.map_cons, List.flatten_cons, tightSep] at this ⊢
      have e : p ++ ((c ++ ",".toList) ++ ((d ++ ",".toList) ++ (cs.map (· ++ ",".toList)).flatten)) =
          p ++ c ++ [','] ++ ((d ++ ",".toList) ++ (cs.map (· ++ ",".toList)).flatten) := by simp
      rw [e, this]
      simp

/-- A side of a branch: the text of the tree, or the destination. -/
def SideText (d : Str) (t : DF) (tc : Str) : Prop := (t = .none ∧ tc = d) ∨ (t ≠ .none ∧ t.tocode d = .ok tc)

/-- The text of a branch with a condition, from the texts of its parts. -/
theorem tocode_branch {d : Str} {c t f : DF} {cc tc fc : Str} (hc : c ≠ .none) (h1 : c.tocode d = .ok cc)
    (h2 : SideText d t tc) (h3 : SideText d f fc) :
    (DF.branch c t f).tocode d =
      .ok ('(' :: '(' :: (cc ++ (')' :: '?' :: ' ' :: (tc ++ (' ' :: ':' :: ' ' :: (fc ++ [')'])))))) := by
  have k2 : ∀ t, t = DF.none → SideText d t tc → tc = d := by
    rintro t rfl (h | h)
    · exact h.2
    · exact absurd rfl h.1
  have k3 : ∀ t x, t ≠ DF.none → SideText d t x → t.tocode d = .ok x := by
    rintro t x hn (h | h)
    · exact absurd h.1 hn
    · exact h.2
  have k4 : ∀ t, t = DF.none → SideText d t fc → fc = d := by
    rintro t rfl (h | h)
    · exact h.2
    · exact absurd rfl h.1
  rw [DF.tocode]
  · simp only [h1, ok_bind]
    split
    · have e2 := k2 _ rfl h2
      split
      · simp [k4 _ rfl h3, e2]
      · next hn => simp [ok_bind, k3 _ _ hn h3, e2]
    · next hn =>
      split
      · simp [ok_bind, k4 _ rfl h3, k3 _ _ hn h2]
      · next hn' => simp [ok_bind, k3 _ _ hn' h3, k3 _ _ hn h2]
  · exact hc

/-- The text of a tree is the text of the expression it stands for. -/
theorem means_code {D : Option Ex} {d : Str} (hd : ∀ x, D = some x → d = x.dcode) (t : DF) :
    ∀ e, Means D t e → e.Plain → t.tocode d = .ok e.dcode := by
  have hlist : ∀ ns : List DF, (∀ n ∈ ns, ∀ e, Means D n e → e.Plain → n.tocode d = .ok e.dcode) →
      ∀ es, List.Forall₂ (Means D) ns es → (∀ e ∈ es, e.Plain) → DF.tocodeList d ns = .ok (es.map Ex.dcode) := by
    intro ns
    induction ns with
    | nil => intro _ es h _; cases h; rfl
    | cons n ns ih =>
      intro hP es h hp
      cases h with
      | @cons _ e _ es' h1 h2 =>
        simp only [DF.tocodeList, hP n (by simp) e h1 (hp e (by simp)), ok_bind,
          ih (fun m hm => hP m (by simp [hm])) es' h2 (fun x hx => hp x (by simp [hx])), List.map_cons]
  induction t using DF.ind with
  | none => intro e h; cases h
  | term n => intro e h _; cases h; rfl
  | intc s => intro e h _; cases h; rfl
  | fltc s => intro e h _; cases h; rfl
  | strc s => intro e h; cases h
  | ev v w a b =>
    intro e h _
    cases h with
    | pos n _ ws _ hw =>
      have hn : ¬ ((n : Int) < 0) := by omega
      simp only [DF.tocode, widthText_eq hw, if_neg hn, Ex.dcode, Int.natAbs_natCast]
      simp
    | neg n _ ws _ hw =>
      have hn : (-((n + 1 : Nat) : Int)) < 0 := by omega
      simp only [DF.tocode, widthText_eq hw, if_pos hn, Ex.dcode, Int.natAbs_neg, Int.natAbs_natCast, Op.mark]
      simp
  | undef w => intro e h _; cases h with | undef _ ws hw => simp only [DF.tocode, widthText_eq hw, Ex.dcode]
  | hiz w => intro e h _; cases h with | hiz _ ws hw => simp only [DF.tocode, widthText_eq hw, Ex.dcode]
  | op o ns ih =>
    intro e h hp
    cases h with
    | un _ a a' h1 =>
      simp only [Ex.Plain] at hp
      simp only [DF.tocode, DF.tocodeList, ih a (by simp) a' h1 hp.2, ok_bind, Ex.dcode]
      simp
    | bin _ a b a' b' h1 h2 =>
      simp only [Ex.Plain] at hp
      simp only [DF.tocode, DF.tocodeList, ih a (by simp) a' h1 hp.2.1, ih b (by simp) b' h2 hp.2.2, ok_bind, Ex.dcode]
      simp
  | psel v m l ihv ihm ihl =>
    intro e h hp
    cases h with
    | psel _ _ _ v' m' l' h1 h2 h3 hne =>
      simp only [Ex.Plain] at hp
      have hne' : m'.dcode ≠ l'.dcode := by
        intro he
        have p1 := dcode_parses m' hp.2.2.1
        rw [he] at p1
        exact hne (p1.unique (dcode_parses l' hp.2.2.2))
      simp only [DF.tocode, ihv v' h1 hp.2.1, ihm m' h2 hp.2.2.1, ihl l' h3 hp.2.2.2, ok_bind, if_neg hne', Ex.dcode]
      simp
    | bit _ _ _ v' m' h1 h2 h3 =>
      simp only [Ex.Plain] at hp
      simp only [DF.tocode, ihv v' h1 hp.2.1, ihm m' h2 hp.2.2, ihl m' h3 hp.2.2, ok_bind, if_true, Ex.dcode]
      simp
  | ptr v p ihv ihp =>
    intro e h hp
    cases h with
    | ptr _ _ v' p' h1 h2 =>
      simp only [Ex.Plain] at hp
      simp only [DF.tocode, ihv v' h1 hp.2.1, ihp p' h2 hp.2.2, ok_bind, Ex.dcode]
      simp
  | concat ns ih =>
    intro e h hp
    cases h with
    | concat _ es h1 =>
      simp only [Ex.Plain, plains_iff] at hp
      simp only [DF.tocode, hlist ns ih es h1 hp.2, ok_bind, Ex.dcode]
      rw [dropLast_flatten_comma _ _ (by simpa using hp.1), dcodes_eq_map]
      simp
  | branch c t f ihc iht ihf =>
    intro e h hp
    cases h with
    | branch _ _ _ c' t' f' h1 h2 h3 =>
      simp only [Ex.Plain] at hp
      have hc : c ≠ .none := by rintro rfl; cases h1
      have ht : t ≠ .none := by rintro rfl; cases h2
      have hf : f ≠ .none := by rintro rfl; cases h3
      rw [tocode_branch hc (ihc c' h1 hp.1) (Or.inr ⟨ht, iht t' h2 hp.2.1⟩) (Or.inr ⟨hf, ihf f' h3 hp.2.2⟩)]
      simp only [Ex.dcode]
    | keepT _ _ c' x f' hD h1 h3 =>
      simp only [Ex.Plain] at hp
      have hc : c ≠ .none := by rintro rfl; cases h1
      have hf : f ≠ .none := by rintro rfl; cases h3
      rw [tocode_branch hc (ihc c' h1 hp.1) (Or.inl ⟨rfl, rfl⟩) (Or.inr ⟨hf, ihf f' h3 hp.2.2⟩)]
      simp only [Ex.dcode, hd x hD]
    | keepF _ _ c' t' x hD h1 h2 =>
      simp only [Ex.Plain] at hp
      have hc : c ≠ .none := by rintro rfl; cases h1
      have ht : t ≠ .none := by rintro rfl; cases h2
      rw [tocode_branch hc (ihc c' h1 hp.1) (Or.inr ⟨ht, iht t' h2 hp.2.1⟩) (Or.inl ⟨rfl, rfl⟩)]
      simp only [Ex.dcode, hd x hD]
    | keep _ c' x hD h1 =>
      simp only [Ex.Plain] at hp
      have hc : c ≠ .none := by rintro rfl; cases h1
      rw [tocode_branch hc (ihc c' h1 hp.1) (Or.inl ⟨rfl, rfl⟩) (Or.inl ⟨rfl, rfl⟩)]
      simp only [Ex.dcode, hd x hD]
  | delay n _ => intro e h; cases h
  | sys s ns ih =>
    intro e h hp
    cases h with
    | sys _ _ es h1 =>
      simp only [Ex.Plain, plains_iff] at hp
      simp only [DF.tocode, hlist ns ih es h1 hp.2.2, ok_bind, Ex.dcode]
      rw [dropLast_flatten_comma _ _ (by simpa using hp.2.1), dcodes_eq_map]
      simp

/-- **C63** (part): `tocode` of a dataflow tree succeeds, and the parser reads the text as the expression the tree stands
for; a branch without a value reads as the destination, whose text `d` is itself printed from a tree.  Missing: trees that
stand for no `Plain` expression (see the counterexamples). -/
theorem C63_tocode_partial (dest t : DF) (D e : Ex) (d0 : Str) (hD : Means none dest D) (hDp : D.Plain)
    (h : Means (some D) t e) (hp : e.Plain) :
    ∃ d c, dest.tocode d0 = .ok d ∧ ParsesTo d D ∧ t.tocode d = .ok c ∧ ParsesTo c e :=
  ⟨D.dcode, e.dcode, means_code (fun _ h => by simp at h) dest D hD hDp, dcode_parses D hDp,
    means_code (fun x hx => by simp only [Option.some.injEq] at hx; rw [hx]) t e h hp, dcode_parses e hp⟩

/-- **C63**, consequence: two trees printed the same stand for the same expression. -/
theorem C63_injective (D : Option Ex) (d : Str) (hd : ∀ x, D = some x → x.Plain ∧ ∃ dt, Means none dt x ∧ dt.tocode [] = .ok d)
    (t t' : DF) (e e' : Ex) (h : Means D t e) (h' : Means D t' e') (hp : e.Plain) (hp' : e'.Plain)
    (hc : t.tocode d = t'.tocode d) : e = e' := by
  have hd' : ∀ x, D = some x → d = x.dcode := by
    intro x hx
    obtain ⟨hxp, dt, hm, hdt⟩ := hd x hx
    rw [means_code (D := none) (fun _ h => by simp at h) dt x hm hxp] at hdt
    exact (ok_inj.mp hdt).symm
  rw [means_code hd' t e h hp, means_code hd' t' e' h' hp'] at hc
  have := ok_inj.mp hc
  exact (this ▸ dcode_parses e hp).unique (dcode_parses e' hp')

/-- A tree stands for at most one expression. -/
theorem C63_means_unique (D : Option Ex) (t : DF) : ∀ e e', Means D t e → Means D t e' → e = e' := by
  have hlist : ∀ ns : List DF, (∀ n ∈ ns, ∀ e e', Means D n e → Means D n e' → e = e') →
      ∀ es es', List.Forall₂ (Means D) ns es → List.Forall₂ (Means D) ns es' → es = es' := by
    intro ns
    induction ns with
    | nil => intro _ es es' h h'; cases h; cases h'; rfl
    | cons n ns ih =>
      intro hP es es' h h'
      cases h with
      | cons h1 h2 =>
        cases h' with
        | cons h3 h4 => rw [hP n (by simp) _ _ h1 h3, ih (fun m hm => hP m (by simp [hm])) _ _ h2 h4]
  have hw : ∀ {w a b}, WidthText w a → WidthText w b → a = b := fun h1 h2 => (widthText_eq h1).symm.trans (widthText_eq h2)
  induction t using DF.ind with
  | none => intro e e' h; cases h
  | term n => intro e e' h h'; cases h; cases h'; rfl
  | intc s => intro e e' h h'; cases h; cases h'; rfl
  | fltc s => intro e e' h h'; cases h; cases h'; rfl
  | strc s => intro e e' h; cases h
  | ev v w a b =>
    intro e e' h h'
    have key : ∀ t e, Means D t e → ∀ n w a b, t = .ev (.int n) w a b →
        e = if n < 0 then .un .uminus (.intc (widthStr w ++ '\'' :: 'd' :: natStr n.natAbs))
          else .intc (widthStr w ++ '\'' :: 'd' :: natStr n.natAbs) := by
      intro t e h n w a b ht
      cases h with
      | pos m _ ws _ h1 =>
        simp only [DF.ev.injEq, PyVal.int.injEq] at ht
        obtain ⟨rfl, rfl, _⟩ := ht
        rw [if_neg (by omega), widthText_eq h1, Int.natAbs_natCast]
      | neg m _ ws _ h1 =>
        simp only [DF.ev.injEq, PyVal.int.injEq] at ht
        obtain ⟨rfl, rfl, _⟩ := ht
        rw [if_pos (by omega), widthText_eq h1, Int.natAbs_neg, Int.natAbs_natCast]
      | _ => simp at ht
    cases v with
    | int n => rw [key _ e h n w a b rfl, key _ e' h' n w a b rfl]
    | _ => cases h
  | undef w => intro e e' h h'; cases h with | undef _ _ h1 => cases h' with | undef _ _ h2 => rw [hw h1 h2]
  | hiz w => intro e e' h h'; cases h with | hiz _ _ h1 => cases h' with | hiz _ _ h2 => rw [hw h1 h2]
  | op o ns ih =>
    intro e e' h h'
    cases h with
    | un _ a a' h1 => cases h' with | un _ _ b' h2 => rw [ih a (by simp) _ _ h1 h2]
    | bin _ a b a' b' h1 h2 => cases h' with | bin _ _ _ x y h3 h4 => rw [ih a (by simp) _ _ h1 h3, ih b (by simp) _ _ h2 h4]
  | psel v m l ihv ihm ihl =>
    intro e e' h h'
    cases h with
    | psel _ _ _ v' m' l' h1 h2 h3 hne =>
      cases h' with
      | psel _ _ _ v2 m2 l2 g1 g2 g3 _ => rw [ihv _ _ h1 g1, ihm _ _ h2 g2, ihl _ _ h3 g3]
      | bit _ _ _ v2 m2 g1 g2 g3 => exact absurd ((ihm _ _ h2 g2).trans (ihl _ _ h3 g3).symm) hne
    | bit _ _ _ v' m' h1 h2 h3 =>
      cases h' with
      | psel _ _ _ v2 m2 l2 g1 g2 g3 hne => exact absurd ((ihm _ _ g2 h2).trans (ihl _ _ g3 h3).symm) hne
      | bit _ _ _ v2 m2 g1 g2 g3 => rw [ihv _ _ h1 g1, ihm _ _ h2 g2]
  | ptr v p ihv ihp => intro e e' h h'; cases h with | ptr _ _ _ _ h1 h2 => cases h' with | ptr _ _ _ _ g1 g2 => rw [ihv _ _ h1 g1, ihp _ _ h2 g2]
  | concat ns ih => intro e e' h h'; cases h with | concat _ _ h1 => cases h' with | concat _ _ g1 => rw [hlist ns ih _ _ h1 g1]
  | branch c t f ihc iht ihf =>
    intro e e' h h'
    have hnone : ∀ e, ¬ Means D .none e := by intro e h; cases h
    cases h with
    | branch _ _ _ _ _ _ h1 h2 h3 =>
      cases h' with
      | branch _ _ _ _ _ _ g1 g2 g3 => rw [ihc _ _ h1 g1, iht _ _ h2 g2, ihf _ _ h3 g3]
      | _ => first | exact absurd h2 (hnone _) | exact absurd h3 (hnone _)
    | keepT _ _ _ _ _ hd h1 h3 =>
      cases h' with
      | branch _ _ _ _ _ _ g1 g2 g3 => exact absurd g2 (hnone _)
      | keepT _ _ _ _ _ gd g1 g3 =>
        rw [hd] at gd; simp only [Option.some.injEq] at gd; subst gd
        rw [ihc _ _ h1 g1, ihf _ _ h3 g3]
      | keepF _ _ _ _ _ gd g1 g2 => exact absurd g2 (hnone _)
      | keep _ _ _ gd g1 => exact absurd h3 (hnone _)
    | keepF _ _ _ _ _ hd h1 h2 =>
      cases h' with
      | branch _ _ _ _ _ _ g1 g2 g3 => exact absurd g3 (hnone _)
      | keepF _ _ _ _ _ gd g1 g2 =>
        rw [hd] at gd; simp only [Option.some.injEq] at gd; subst gd
        rw [ihc _ _ h1 g1, iht _ _ h2 g2]
      | keepT _ _ _ _ _ gd g1 g2 => exact absurd g2 (hnone _)
      | keep _ _ _ gd g1 => exact absurd h2 (hnone _)
    | keep _ _ _ hd h1 =>
      cases h' with
      | branch _ _ _ _ _ _ g1 g2 g3 => exact absurd g3 (hnone _)
      | keepT _ _ _ _ _ gd g1 g3 => exact absurd g3 (hnone _)
      | keepF _ _ _ _ _ gd g1 g2 => exact absurd g2 (hnone _)
      | keep _ _ _ gd g1 =>
        rw [hd] at gd; simp only [Option.some.injEq] at gd; subst gd
        rw [ihc _ _ h1 g1]
  | delay n _ => intro e e' h; cases h
  | sys s ns ih => intro e e' h h'; cases h with | sys _ _ _ h1 => cases h' with | sys _ _ _ g1 => rw [hlist ns ih _ _ h1 g1]

/-- **C63** fails for string constants: they are printed without their quotes, so that the string `ab` reads as the name
`ab`. -/
theorem C63_fails_string (s d : Str) : (DF.strc s).tocode d = .ok s ∧
    ParsesTo "ab".toList (.ident [] "ab".toList) :=
  ⟨rfl, ⟨[.id "ab".toList], by decide +kernel, 4, rfl⟩⟩

/-- **C63** fails for a selection from an expression (`take_part`-like trees `(a+b)[0]`): Verilog indexes only names. -/
theorem C63_fails_select (n m : ScopeChain) (hn : n.tocode = "a".toList) (hm : m.tocode = "b".toList) (d : Str) :
    (DF.ptr (.op .plus [.term n, .term m]) (.intc "0".toList)).tocode d = .ok "(a+b)[0]".toList ∧
    ¬ ∃ e, ParsesTo "(a+b)[0]".toList e := by
  refine ⟨by simp [DF.tocode, DF.tocodeList, hn, hm, Op.mark, ok_bind], ?_⟩
  rintro ⟨e, ts, hl, n, hn⟩
  have : lex "(a+b)[0]".toList = some [.p .lparen, .id "a".toList, .p .plus, .id "b".toList, .p .rparen, .p .lbracket,
      .int "0".toList, .p .rbracket] := by decide +kernel
  rw [this] at hl
  obtain rfl := Option.some.inj hl
  have h15 : ∀ k, k ≤ 15 → parseN k [] [.p .lparen, .id "a".toList, .p .plus, .id "b".toList, .p .rparen, .p .lbracket,
      .int "0".toList, .p .rbracket] = none := by decide +kernel
  by_cases hk : n ≤ 15
  · rw [h15 n hk] at hn; simp at hn
  · obtain ⟨k, rfl⟩ : ∃ k, n = k + 16 := ⟨n - 16, by omega⟩
    simp [parseN, step, stepEx, shift, stepParen, callHead, Pun.unOp, Pun.binOp, reduceLeft, Tok.infix?, stepBracket, Sym.base?] at hn

/-- **C63** fails for an empty concatenation: the opening brace is cut off instead of a comma. -/
theorem C63_fails_concat (d : Str) : (DF.concat []).tocode d = .ok "}".toList := rfl

/-- A branch without a condition is printed without an operand in front of `?`. -/
theorem C63_fails_branch (n : ScopeChain) (hn : n.tocode = "a".toList) :
    (DF.branch .none (.term n) .none).tocode "d".toList = .ok "(? a : d)".toList := by
  simp [DF.tocode, hn, ok_bind]

/-- `((c)? {a[4'd3:'d0],(-2'd1)} : q)` with a missing else branch. -/
example (c a q : ScopeChain) (hc : c.tocode = "c".toList) (ha : a.tocode = "a".toList) (hq : q.tocode = "q".toList) :
    ∃ e : Ex, e.Plain ∧ Means (some (.ident [] "q".toList))
      (.branch (.term c) (.concat [.psel (.term a) (.evi 3 (some 4)) (.evi 0 (some 32)), .evi (-1) (some 2)]) .none) e ∧
    Means none (.term q) (.ident [] "q".toList) ∧ (Ex.ident [] "q".toList).Plain ∧
    ParsesTo "((c)? {a[4'd3:'d0],(-2'd1)} : q)".toList e := by
  have hp : ∀ ch, ch ∈ "acq".toList → PlainId [ch] := by
    intro ch h
    refine ⟨⟨ch, [], rfl, ?_, by simp⟩, ?_⟩ <;> (revert ch; decide +kernel)
  have hb : ∀ size, size = "4".toList ∨ size = [] ∨ size = "2".toList → ∀ f, f ∈ "301".toList →
      IntLit (size ++ '\'' :: ([] ++ 'd' :: f :: [])) := by
    intro size hs f hf
    refine .based size [] 'd' f [] ?_ (Or.inl rfl) (Or.inr (Or.inr (Or.inr ⟨by decide, ?_⟩))) (by simp) (by simp)
    · rcases hs with rfl | rfl | rfl <;> decide
    · revert f; decide
  let e : Ex := .cond (.ident [] "c".toList) (.concat [.psel (.ident [] "a".toList) (.intc "4'd3".toList) (.intc "'d0".toList),
    .un .uminus (.intc "2'd1".toList)]) (.ident [] "q".toList)
  have hpl : e.Plain := by
    simp only [e, Ex.Plain, Ex.Plains, Ex.isBase, ne_eq, true_and]
    exact ⟨hp _ (by decide), ⟨by simp, ⟨hp _ (by decide), hb "4".toList (by simp) '3' (by decide),
      hb [] (by simp) '0' (by decide)⟩, ⟨rfl, hb "2".toList (by simp) '1' (by decide)⟩, trivial⟩, hp _ (by decide)⟩
  have htm : ∀ (D : Option Ex) (n : ScopeChain) (s : Str), n.tocode = s → Means D (.term n) (.ident [] s) := by
    rintro D n s rfl; exact .term n
  refine ⟨e, hpl, ?_, htm _ _ _ hq, by simp only [Ex.Plain]; exact ⟨trivial, hp _ (by decide)⟩, ?_⟩
  · refine .keepF _ _ _ _ _ rfl (htm _ _ _ hc) (.concat _ _ (.cons ?_ (.cons ?_ .nil)))
    · refine .psel _ _ _ _ _ _ (htm _ _ _ ha) ?_ ?_ (by simp)
      · exact .pos 3 _ "4".toList false (Or.inr ⟨4, by decide, rfl, by decide⟩)
      · exact .pos 0 _ [] false (Or.inl ⟨rfl, rfl⟩)
    · exact .neg 0 _ "2".toList false (Or.inr ⟨2, by decide, rfl, by decide⟩)
  · have := dcode_parses e hpl
    have he : e.dcode = "((c)? {a[4'd3:'d0],(-2'd1)} : q)".toList := by decide +kernel
    rwa [he] at this

end Pyv
