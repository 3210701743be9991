import Verif.GrammarSpec
import Verif.Props.ParseProps
/-
  C81: the parser reads exactly the expression grammar of Verilog.
-/
namespace Pyv

/-- The table of layers and the parser's precedence table agree. -/
theorem inLayer_iff (l : Nat) (k : Pun) (o : Op) : InLayer l k o ↔ k.binOp = some o ∧ k.level = l := by
  constructor
  · rintro ⟨h1, ops, ho, hm⟩
    have hl : l - 1 < 11 := by
      rcases Nat.lt_or_ge (l - 1) 11 with h | h
      · exact h
      · rw [List.getElem?_eq_none (by simpa [layers] using h)] at ho; simp at ho
    obtain ⟨n, rfl⟩ : ∃ n, l = n + 1 := ⟨l - 1, by omega⟩
    simp only [Nat.add_sub_cancel] at ho hl
    rcases n with _ | _ | _ | _ | _ | _ | _ | _ | _ | _ | _ | n
    all_goals first
      | omega
      | (simp only [layers, List.getElem?_cons_zero, List.getElem?_cons_succ, Option.some.injEq] at ho
         subst ho
         simp only [List.mem_cons, List.not_mem_nil, or_false, Prod.mk.injEq] at hm
         rcases hm with ⟨rfl, rfl⟩ | hm <;> try exact ⟨rfl, rfl⟩
         all_goals (rcases hm with ⟨rfl, rfl⟩ | hm <;> try exact ⟨rfl, rfl⟩)
         all_goals (rcases hm with ⟨rfl, rfl⟩ | hm <;> try exact ⟨rfl, rfl⟩)
         all_goals (obtain ⟨rfl, rfl⟩ := hm; exact ⟨rfl, rfl⟩))
      | (simp only [layers, List.getElem?_cons_zero, List.getElem?_cons_succ, Option.some.injEq] at ho
         subst ho
         simp only [List.mem_cons, List.not_mem_nil, or_false, Prod.mk.injEq] at hm
         rcases hm with ⟨rfl, rfl⟩ | ⟨rfl, rfl⟩ | ⟨rfl, rfl⟩ <;> exact ⟨rfl, rfl⟩)
      | (simp only [layers, List.getElem?_cons_zero, List.getElem?_cons_succ, Option.some.injEq] at ho
         subst ho
         simp only [List.mem_cons, List.not_mem_nil, or_false, Prod.mk.injEq] at hm
         rcases hm with ⟨rfl, rfl⟩ | ⟨rfl, rfl⟩ <;> exact ⟨rfl, rfl⟩)
      | (simp only [layers, List.getElem?_cons_zero, List.getElem?_cons_succ, Option.some.injEq] at ho
         subst ho
         simp only [List.mem_cons, List.not_mem_nil, or_false, Prod.mk.injEq] at hm
         obtain ⟨rfl, rfl⟩ := hm; exact ⟨rfl, rfl⟩)
  · rintro ⟨h1, rfl⟩
    cases k <;> simp [Pun.binOp] at h1 <;> subst h1 <;> simp [InLayer, Pun.level, layers]

/-- The table of prefix operators and the parser's productions agree. -/
theorem prefix_unOp {k : Pun} {o : Option Op} (h : (k, o) ∈ prefixes) : k.unOp = some (prefixed o) := by
  simp only [prefixes, List.mem_cons, List.not_mem_nil, or_false, Prod.mk.injEq] at h
  rcases h with ⟨rfl, rfl⟩ | ⟨rfl, rfl⟩ | ⟨rfl, rfl⟩ | ⟨rfl, rfl⟩ | ⟨rfl, rfl⟩ | ⟨rfl, rfl⟩ | ⟨rfl, rfl⟩ | ⟨rfl, rfl⟩ |
    ⟨rfl, rfl⟩ | ⟨rfl, rfl⟩ <;> rfl
theorem unOp_prefix {k : Pun} {f : Ex → Ex} (h : k.unOp = some f) : ∃ o, (k, o) ∈ prefixes ∧ f = prefixed o := by
  cases k <;> simp [Pun.unOp] at h <;> subst h
  all_goals first
    | exact ⟨none, by simp [prefixes], rfl⟩
    | exact ⟨some .uminus, by simp [prefixes], rfl⟩
    | exact ⟨some .ulnot, by simp [prefixes], rfl⟩
    | exact ⟨some .unot, by simp [prefixes], rfl⟩
    | exact ⟨some .uand, by simp [prefixes], rfl⟩
    | exact ⟨some .unand, by simp [prefixes], rfl⟩
    | exact ⟨some .uor, by simp [prefixes], rfl⟩
    | exact ⟨some .unor, by simp [prefixes], rfl⟩
    | exact ⟨some .uxor, by simp [prefixes], rfl⟩
    | exact ⟨some .uxnor, by simp [prefixes], rfl⟩

/-! ## What the grammar derives is parsed -/

theorem step_un (e : Ex) (k : Pun) (f : Ex → Ex) (h : k.unOp = some f) (σ : List Sym) (hσ : Ctx σ = true)
    (ts : List Tok) : step (.ex e :: .tok (.p k) :: σ) ts = some (.ex (f e) :: σ, ts) := by
  have hne : ∀ a st, σ ≠ .ex a :: st := by
    rintro a st rfl; simp [Ctx] at hσ
  cases σ with
  | nil => cases k <;> simp [Pun.unOp] at h <;> subst h <;> rfl
  | cons x σ =>
    cases x with
    | ex a => exact absurd rfl (hne a σ)
    | tok t => cases k <;> simp [Pun.unOp] at h <;> subst h <;> rfl
    | _ => simp [Ctx] at hσ

theorem step_bin (e a : Ex) (k : Pun) (o : Op) (h : k.binOp = some o) (σ : List Sym) (ts : List Tok)
    (hr : reduceLeft k.level ts.head? = true) :
    step (.ex e :: .tok (.p k) :: .ex a :: σ) ts = some (.ex (.bin o a e) :: σ, ts) := by
  cases k <;> simp [Pun.binOp] at h <;> subst h <;> simp [step, stepEx, Pun.binOp, hr]

theorem un_ctx {k : Pun} {f : Ex → Ex} (h : k.unOp = some f) (σ : List Sym) : Ctx (.tok (.p k) :: σ) = true := by
  cases k <;> simp [Pun.unOp] at h <;> simp [Ctx]
theorem un_ne {k : Pun} {f : Ex → Ex} (h : k.unOp = some f) : Tok.p k ≠ .p .rparen ∧ Tok.p k ≠ .p .comma := by
  cases k <;> simp [Pun.unOp] at h <;> simp
theorem bin_ctx {k : Pun} {o : Op} (h : k.binOp = some o) (σ : List Sym) : Ctx (.tok (.p k) :: σ) = true := by
  cases k <;> simp [Pun.binOp] at h <;> simp [Ctx]
theorem bin_follow {k : Pun} {o : Op} (h : k.binOp = some o) (ts : List Tok) : Follow (.p k :: ts) := by
  cases k <;> simp [Pun.binOp] at h <;> simp [Follow]
theorem bin_infix {k : Pun} {o : Op} (h : k.binOp = some o) : Tok.infix? (some (.p k)) = some k.level := by
  simp [Tok.infix?, h]
theorem level_le (k : Pun) : k.level ≤ 11 := by cases k <;> decide

/-- An operator that waits on the stack lets an expression of layer `l` be read. -/
def Room (σ : List Sym) (l : Nat) : Prop := pend σ < l ∨ pend σ = 0 ∨ l = 12
/-- What follows ends an expression of layer `l`. -/
def Closes (l : Nat) (rest : List Tok) : Prop := ∀ sl, Tok.infix? rest.head? = some sl → 1 ≤ l ∧ sl ≤ l

/-- What reading a phrase means for the parser. -/
def Parsed : Phrase → List Tok → Prop
  | .expr l e, ts => ∀ (σ : List Sym) (rest : List Tok), Ctx σ = true → Room σ l → Follow rest → Closes l rest →
      St σ (ts ++ rest) (.ex e :: σ) rest
  | .base v, ts => ∀ (σ : List Sym) (rest : List Tok), Ctx σ = true →
      ∃ b : Sym, b.base? = some v ∧ St σ (ts ++ rest) (b :: σ) rest
  | .items es, ts => ∀ (σ : List Sym) (rest : List Tok), rest.head? = some (.p .rbrace) ∨ rest.head? = some (.p .comma) →
      St (.tok (.p .lbrace) :: σ) (ts ++ rest) (.cl es :: .tok (.p .lbrace) :: σ) rest
  | .args es, ts => ∀ (σ : List Sym) (rest : List Tok), callHead σ = true →
      rest.head? = some (.p .rparen) ∨ rest.head? = some (.p .comma) →
      St (.tok (.p .lparen) :: σ) (ts ++ rest) (.args es :: .tok (.p .lparen) :: σ) rest

/-- Reading a full expression between brackets. -/
theorem Parsed.full {e : Ex} {ts : List Tok} (h : Parsed (.expr 0 e) ts) {k : Pun} {σ : List Sym} {la : Tok}
    {rest : List Tok} (hc : Ctx (.tok (.p k) :: σ) = true) (hp : pend (.tok (.p k) :: σ) = 0)
    (hf : Follow (la :: rest)) (hi : Tok.infix? (some la) = none) :
    St (.tok (.p k) :: σ) (ts ++ la :: rest) (.ex e :: .tok (.p k) :: σ) (la :: rest) :=
  h _ _ hc (Or.inr (Or.inl hp)) hf (fun sl hsl => by rw [List.head?_cons, hi] at hsl; simp at hsl)

theorem derives_parsed {ph : Phrase} {ts : List Tok} (h : Derives ph ts) : Parsed ph ts := by
  induction h with
  | int s => exact fun σ rest hσ _ hf _ => .head (shiftCtx σ _ _ hσ (by simp) (by simp)) (.head rfl .refl)
  | flt s => exact fun σ rest hσ _ hf _ => .head (shiftCtx σ _ _ hσ (by simp) (by simp)) (.head rfl .refl)
  | str s => exact fun σ rest hσ _ hf _ => .head (shiftCtx σ _ _ hσ (by simp) (by simp)) (.head rfl .refl)
  | name sc n => exact fun σ rest hσ => ⟨.idn sc n, rfl, parse_ident sc n σ rest hσ⟩
  | @index v i ts us _ _ ihv ihi =>
    intro σ rest hσ
    simp only [List.append_assoc, List.cons_append, List.nil_append]
    obtain ⟨b, hb, hst⟩ := ihv σ _ hσ
    refine ⟨.ptr _ _, rfl, hst.trans (.head (base_shift b _ hb σ _) ((Parsed.full ihi rfl (pend_of _ rfl rfl)
      (by simp [Follow]) rfl).trans (.head (s1 := .tok (.p .rbracket) :: .ex i :: .tok (.p .lbracket) :: b :: σ)
        (t1 := rest) ?_ (.head ?_ .refl))))⟩
    · cases b <;> first | rfl | simp [Sym.base?] at hb
    · simp [step, stepBracket, hb]
  | operand _ ih =>
    intro σ rest hσ _ hf _
    obtain ⟨b, hb, hst⟩ := ih σ rest hσ
    exact hst.trans (.head (base_reduce b _ hb σ rest hf) .refl)
  | @part v m l ts us ws _ _ _ ihv ihm ihl =>
    intro σ rest hσ _ hf _
    simp only [List.append_assoc, List.cons_append, List.nil_append]
    obtain ⟨b, hb, hst⟩ := ihv σ _ hσ
    refine hst.trans (.head (base_shift b _ hb σ _) ((Parsed.full ihm rfl (pend_of _ rfl rfl)
      (by simp [Follow]) rfl).trans ?_))
    refine .head (s1 := .tok (.p .colon) :: .ex m :: .tok (.p .lbracket) :: b :: σ) ?_
      ((Parsed.full ihl rfl (pend_of _ rfl rfl) (by simp [Follow]) rfl).trans
        (.head (s1 := .tok (.p .rbracket) :: .ex l :: .tok (.p .colon) :: .ex m :: .tok (.p .lbracket) :: b :: σ)
          (t1 := rest) rfl (.head ?_ .refl)))
    · cases b <;> first | rfl | simp [Sym.base?] at hb
    · simp [step, stepBracket, hb]
  | @partUp v m l ts us ws _ _ _ ihv ihm ihl =>
    intro σ rest hσ _ hf _
    simp only [List.append_assoc, List.cons_append, List.nil_append]
    obtain ⟨b, hb, hst⟩ := ihv σ _ hσ
    refine hst.trans (.head (base_shift b _ hb σ _) ((Parsed.full ihm rfl (pend_of _ rfl rfl)
      (by simp [Follow]) rfl).trans ?_))
    refine .head (s1 := .tok (.p .pluscolon) :: .ex m :: .tok (.p .lbracket) :: b :: σ) ?_
      ((Parsed.full ihl rfl (pend_of _ rfl rfl) (by simp [Follow]) rfl).trans
        (.head (s1 := .tok (.p .rbracket) :: .ex l :: .tok (.p .pluscolon) :: .ex m :: .tok (.p .lbracket) :: b :: σ)
          (t1 := rest) rfl (.head ?_ .refl)))
    · cases b <;> first | rfl | simp [Sym.base?] at hb
    · simp [step, stepBracket, hb]
  | @partDown v m l ts us ws _ _ _ ihv ihm ihl =>
    intro σ rest hσ _ hf _
    simp only [List.append_assoc, List.cons_append, List.nil_append]
    obtain ⟨b, hb, hst⟩ := ihv σ _ hσ
    refine hst.trans (.head (base_shift b _ hb σ _) ((Parsed.full ihm rfl (pend_of _ rfl rfl)
      (by simp [Follow]) rfl).trans ?_))
    refine .head (s1 := .tok (.p .minuscolon) :: .ex m :: .tok (.p .lbracket) :: b :: σ) ?_
      ((Parsed.full ihl rfl (pend_of _ rfl rfl) (by simp [Follow]) rfl).trans
        (.head (s1 := .tok (.p .rbracket) :: .ex l :: .tok (.p .minuscolon) :: .ex m :: .tok (.p .lbracket) :: b :: σ)
          (t1 := rest) rfl (.head ?_ .refl)))
    · cases b <;> first | rfl | simp [Sym.base?] at hb
    · simp [step, stepBracket, hb]
  | @paren e ts _ ih =>
    intro σ rest hσ _ hf _
    have hch := ctx_callHead hσ
    simp only [List.append_assoc, List.cons_append, List.nil_append]
    refine .head (shiftCtx σ _ _ hσ (by simp) (by simp)) ((Parsed.full ih rfl (pend_of _ rfl rfl)
      (by simp [Follow]) rfl).trans (.head (s1 := .tok (.p .rparen) :: .ex e :: .tok (.p .lparen) :: σ)
        (t1 := rest) ?_ (.head (s1 := .ex e :: σ) (t1 := rest) ?_ .refl)))
    · cases σ with
      | nil => rfl
      | cons x σ => cases x <;> first | rfl | simp [step, stepEx, hch, shift]
    · simp [step, stepParen, hch]
  | item _ ih =>
    intro σ rest hr
    cases rest with
    | nil => simp at hr
    | cons la rest =>
      simp only [List.head?_cons, Option.some.injEq] at hr
      refine (Parsed.full ih rfl (pend_of _ rfl rfl) ?_ ?_).trans (.head ?_ .refl)
      · rcases hr with rfl | rfl <;> simp [Follow]
      · rcases hr with rfl | rfl <;> rfl
      · simp [step, stepEx, hr]
  | items _ _ ihs ih =>
    intro σ rest hr
    simp only [List.append_assoc, List.cons_append]
    refine (ihs σ _ (Or.inr rfl)).trans (.head (s1 := .tok (.p .comma) :: .cl _ :: .tok (.p .lbrace) :: σ) rfl ?_)
    cases rest with
    | nil => simp at hr
    | cons la rest =>
      simp only [List.head?_cons, Option.some.injEq] at hr
      have hi : Tok.infix? (some la) = none := by rcases hr with rfl | rfl <;> rfl
      refine (Parsed.full ih rfl rfl ?_ hi).trans (.head ?_ .refl)
      · rcases hr with rfl | rfl <;> simp [Follow]
      · simp [step, stepEx, hi]
  | @concat es ts _ ih =>
    intro σ rest hσ _ hf _
    simp only [List.append_assoc, List.cons_append, List.nil_append]
    refine .head (shiftCtx σ _ _ hσ (by simp) (by simp)) ((ih σ _ (Or.inl rfl)).trans
      (.head (s1 := .tok (.p .rbrace) :: .cl es :: .tok (.p .lbrace) :: σ) rfl (.head (s1 := .cat es :: σ) rfl
        (.head (s1 := .ex (.concat es) :: σ) (t1 := rest) ?_ .refl))))
    unfold Ctx at hσ
    split at hσ
    · rfl
    · rfl
    · simp at hσ
  | @repeated t es ts us _ _ iht ih =>
    intro σ rest hσ _ hf _
    simp only [List.append_assoc, List.cons_append, List.nil_append]
    refine .head (shiftCtx σ _ _ hσ (by simp) (by simp)) ((Parsed.full iht rfl (pend_of _ rfl rfl)
      (by simp [Follow]) rfl).trans (.head (s1 := .tok (.p .lbrace) :: .ex t :: .tok (.p .lbrace) :: σ) rfl
        ((ih _ _ (Or.inl rfl)).trans ?_)))
    exact .head (s1 := .tok (.p .rbrace) :: .cl es :: .tok (.p .lbrace) :: .ex t :: .tok (.p .lbrace) :: σ) rfl
      (.head (s1 := .cat es :: .ex t :: .tok (.p .lbrace) :: σ) rfl
        (.head (s1 := .tok (.p .rbrace) :: .cat es :: .ex t :: .tok (.p .lbrace) :: σ) rfl (.head rfl .refl)))
  | noArg =>
    intro σ rest hc hr
    refine .head (s1 := .args [] :: .tok (.p .lparen) :: σ) (t1 := rest) ?_ .refl
    simp [step, hc, hr]
  | @arg e ts _ ih =>
    intro σ rest hc hr
    cases rest with
    | nil => simp at hr
    | cons la rest =>
      simp only [List.head?_cons, Option.some.injEq] at hr
      refine (Parsed.full ih rfl (pend_of _ rfl rfl) ?_ ?_).trans (.head ?_ .refl)
      · rcases hr with rfl | rfl <;> simp [Follow]
      · rcases hr with rfl | rfl <;> rfl
      · have hne : ∀ a st, σ ≠ .ex a :: st := by rintro a st rfl; simp [callHead] at hc
        cases σ with
        | nil => simp [callHead] at hc
        | cons x σ =>
          cases x with
          | ex a => exact absurd rfl (hne a σ)
          | _ => simp [step, stepEx, hc, hr]
  | args _ _ ihs ih =>
    intro σ rest hc hr
    simp only [List.append_assoc, List.cons_append]
    refine (ihs σ _ hc (Or.inr rfl)).trans (.head (s1 := .tok (.p .comma) :: .args _ :: .tok (.p .lparen) :: σ) rfl ?_)
    cases rest with
    | nil => simp at hr
    | cons la rest =>
      simp only [List.head?_cons, Option.some.injEq] at hr
      have hi : Tok.infix? (some la) = none := by rcases hr with rfl | rfl <;> rfl
      refine (Parsed.full ih rfl rfl ?_ hi).trans (.head ?_ .refl)
      · rcases hr with rfl | rfl <;> simp [Follow]
      · simp [step, stepEx, hi]
  | @call f es ts _ ih =>
    intro σ rest hσ _ hf _
    simp only [List.append_assoc, List.cons_append, List.nil_append]
    refine .head (shiftCtx σ _ _ hσ (by simp) (by simp)) (.head (step_id f σ _ hσ)
      (.head (s1 := .tok (.p .lparen) :: .idn [] f :: σ) rfl ((ih _ _ rfl (Or.inl rfl)).trans ?_)))
    exact .head (s1 := .tok (.p .rparen) :: .args es :: .tok (.p .lparen) :: .idn [] f :: σ) rfl (.head rfl .refl)
  | sysPlain f =>
    intro σ rest hσ _ hf _
    simp only [List.cons_append, List.nil_append]
    refine .head (shiftCtx σ _ _ hσ (by simp) (by simp)) (.head (s1 := .tok (.id f) :: .tok (.p .doller) :: σ) rfl
      (.head (s1 := .ex (.sys f []) :: σ) (t1 := rest) ?_ .refl))
    simp only [step]
    rw [if_neg hf.2.2]
  | @sys f es ts _ ih =>
    intro σ rest hσ _ hf _
    simp only [List.append_assoc, List.cons_append, List.nil_append]
    refine .head (shiftCtx σ _ _ hσ (by simp) (by simp)) (.head (s1 := .tok (.id f) :: .tok (.p .doller) :: σ) rfl
      (.head (s1 := .tok (.p .lparen) :: .tok (.id f) :: .tok (.p .doller) :: σ)
        (t1 := ts ++ .p .rparen :: rest) ?_ ((ih _ _ rfl (Or.inl rfl)).trans ?_)))
    · simp [step, shift]
    · exact .head (s1 := .tok (.p .rparen) :: .args es :: .tok (.p .lparen) :: .tok (.id f) :: .tok (.p .doller) :: σ) rfl
        (.head rfl .refl)
  | @signed es ts _ ih =>
    intro σ rest hσ _ hf _
    simp only [List.append_assoc, List.cons_append, List.nil_append]
    refine .head (shiftCtx σ _ _ hσ (by simp) (by simp)) (.head (s1 := .tok (.kw "signed".toList) :: .tok (.p .doller) :: σ) rfl
      (.head (s1 := .tok (.p .lparen) :: .tok (.kw "signed".toList) :: .tok (.p .doller) :: σ)
        (t1 := ts ++ .p .rparen :: rest) rfl ((ih _ _ rfl (Or.inl rfl)).trans ?_)))
    refine .head (s1 := .tok (.p .rparen) :: .args es :: .tok (.p .lparen) :: .tok (.kw "signed".toList) :: .tok (.p .doller) :: σ) rfl
        (.head (s1 := .ex (.sys "signed".toList es) :: σ) (t1 := rest) ?_ .refl)
    simp [step, stepParen]
  | un hk _ ih =>
    intro σ rest hσ _ hf he
    have hu := prefix_unOp hk
    simp only [List.cons_append]
    exact .head (shiftCtx σ _ _ hσ (un_ne hu).1 (un_ne hu).2)
      ((ih _ rest (un_ctx hu σ) (Or.inr (Or.inr rfl)) hf he).trans (.head (step_un _ _ _ hu σ hσ rest) .refl))
  | @bin l k o a b ts us hl _ _ iha ihb =>
    intro σ rest hσ hr hf he
    obtain ⟨hk, rfl⟩ := (inLayer_iff l k o).1 hl
    have h1 := binOp_level k (by simp [hk])
    have h11 := level_le k
    simp only [List.append_assoc, List.cons_append]
    refine (iha σ _ hσ hr (bin_follow hk _) ?_).trans ?_
    · intro sl hsl
      rw [List.head?_cons, bin_infix hk] at hsl
      simp only [Option.some.injEq] at hsl
      omega
    refine .head (shift_infix _ _ _ _ _ (bin_infix hk) ?_) ?_
    · rcases hr with h | h | h
      · exact Or.inl h
      · exact Or.inr h
      · omega
    have hpe : pend (.tok (.p k) :: .ex a :: σ) = k.level := by simp [pend, hk]
    refine (ihb _ rest (bin_ctx hk _) (Or.inl (by omega)) hf (fun sl hsl => ?_)).trans
      (.head (step_bin _ _ k o hk σ rest ?_) .refl)
    · have := he sl hsl; omega
    · unfold reduceLeft
      split
      · next sl hsl => simpa using (he sl hsl).2
      · rfl
  | @cond c t f ts us ws _ _ _ ihc iht ihf =>
    intro σ rest hσ hr hf he
    have hp : pend σ = 0 := by
      rcases hr with h | h | h
      · omega
      · exact h
      · omega
    have hn : Tok.infix? rest.head? = none := by
      cases hi : Tok.infix? rest.head? with
      | none => rfl
      | some sl => have := (he sl hi).1; omega
    simp only [List.append_assoc, List.cons_append]
    refine (ihc σ _ hσ (Or.inr (Or.inl hp)) (by simp [Follow]) ?_).trans ?_
    · intro sl hsl
      have : sl = 0 := by simpa [Tok.infix?, Pun.level] using hsl.symm
      omega
    refine .head (shift_infix _ _ _ _ 0 rfl (Or.inr hp)) ?_
    refine (Parsed.full iht rfl (pend_of _ rfl rfl) (by simp [Follow]) rfl).trans ?_
    refine .head (s1 := .tok (.p .colon) :: .ex t :: .tok (.p .cond) :: .ex c :: σ) rfl ?_
    refine (ihf _ rest rfl (Or.inr (Or.inl (pend_of _ rfl rfl))) hf he).trans
      (.head (s1 := .ex (.cond c t f) :: σ) (t1 := rest) ?_ .refl)
    simp [step, stepEx, reduceCond, hn]
  | @stronger l e ts hl _ ih =>
    intro σ rest hσ hr hf he
    refine ih σ rest hσ ?_ hf (fun sl hsl => ?_)
    · rcases hr with h | h | h
      · exact Or.inl (by omega)
      · exact Or.inr (Or.inl h)
      · omega
    · have := he sl hsl; omega

end Pyv
