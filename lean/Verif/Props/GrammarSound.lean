import Verif.Props.GrammarProps
/-
  C81, the other direction: what the parser reads is derived by the grammar.
-/
namespace Pyv

/-- The tokens of a stack symbol derive its value; `m` is the layer of an expression. -/
def StandsFor : Sym → Nat → List Tok → Prop
  | .tok t, _, ts => ts = [t]
  | .ex e, m, ts => Derives (.expr m e) ts
  | .idn sc n, _, ts => ts = sc.flatMap (fun l => [Tok.id l, .p .dot]) ++ [.id n]
  | .ptr v p, _, ts => Derives (.base (.ptr v p)) ts
  | .cl es, _, ts => Derives (.items es) ts
  | .cat es, _, ts => ∃ us, Derives (.items es) us ∧ ts = .p .lbrace :: (us ++ [.p .rbrace])
  | .args es, _, ts => Derives (.args es) ts
  | .scope sc, _, ts => ts = sc.flatMap (fun l => [Tok.id l, .p .dot])

/-- An expression is on the top. -/
def exTop : List Sym → Bool
  | .ex _ :: _ => true
  | _ => false

/-- The operand of a prefix operator is on the top. -/
def Operand (σ : List Sym) : Prop :=
  ∃ e k σ', σ = .ex e :: .tok (.p k) :: σ' ∧ k.unOp.isSome = true ∧ exTop σ' = false

/-- What is known about a symbol of layer `m` and what is below it: nothing lies over the operand of a prefix operator;
an operator lies over a left operand of its own layer, and is stronger than the operator that waits below that; a right
operand belongs to a stronger layer than its operator. -/
structure Loc (s : Sym) (m : Nat) (σ : List Sym) (l : Nat) : Prop where
  free : ¬ Operand σ
  left : ∀ k a σ' sl, s = .tok (.p k) → σ = .ex a :: σ' → Tok.infix? (some (.p k)) = some sl →
    1 ≤ l ∧ sl ≤ l ∧ ∀ o b σ'', σ' = .tok (.p o) :: .ex b :: σ'' → o.binOp.isSome = true → o.level < sl
  right : ∀ e k a σ', s = .ex e → σ = .tok (.p k) :: .ex a :: σ' → k.binOp.isSome = true → k.level < m
  pre : ∀ e k σ', s = .ex e → σ = .tok (.p k) :: σ' → k.unOp.isSome = true → exTop σ' = false → m = 12

/-- The stack with the layer of its top and the tokens it stands for. -/
inductive Stk : List Sym → Nat → List Tok → Prop
  | nil : Stk [] 12 []
  | push {s σ m l us ts} : Stk σ l us → StandsFor s m ts → Loc s m σ l → Stk (s :: σ) m (us ++ ts)

/-- The next token goes on with an expression on the top only if its layer allows it. -/
def TopOK (σ : List Sym) (m : Nat) (ts : List Tok) : Prop :=
  exTop σ = true → ∀ sl, Tok.infix? ts.head? = some sl → 1 ≤ m ∧ sl ≤ m

/-- The parser's invariant: the stack and the remaining tokens are the input. -/
def GInv (input : List Tok) (σ : List Sym) (ts : List Tok) : Prop :=
  ∃ m us, Stk σ m us ∧ TopOK σ m ts ∧ us ++ ts = input

theorem infix_le {t : Option Tok} {sl : Nat} (h : Tok.infix? t = some sl) : sl ≤ 11 := by
  unfold Tok.infix? at h
  split at h
  · next k =>
    have := level_le k
    split at h
    · simp at h; omega
    · simp at h
  · simp at h

/-- A symbol that is no expression and no token may be put wherever something else was. -/
theorem Loc.other {s : Sym} {m : Nat} {σ : List Sym} {l : Nat} (hf : ¬ Operand σ) (h1 : ∀ e, s ≠ .ex e)
    (h2 : ∀ t, s ≠ .tok t) : Loc s m σ l :=
  ⟨hf, fun _ _ _ _ h => absurd h (h2 _), fun _ _ _ _ h => absurd h (h1 _), fun _ _ _ h => absurd h (h1 _)⟩
/-- So may an operand. -/
theorem Loc.operand {e : Ex} {σ : List Sym} {l : Nat} (hf : ¬ Operand σ) : Loc (.ex e) 12 σ l :=
  ⟨hf, fun _ _ _ _ h => by simp at h, fun _ k _ _ _ _ _ => by have := level_le k; omega, fun _ _ _ _ _ _ _ => rfl⟩
/-- A token may be put on anything that is no expression. -/
theorem Loc.token {t : Tok} {m : Nat} {σ : List Sym} {l : Nat} (h : exTop σ = false) : Loc (.tok t) m σ l := by
  refine ⟨?_, ?_, fun _ _ _ _ h => by simp at h, fun _ _ _ h => by simp at h⟩
  · rintro ⟨e, k, σ', rfl, _⟩; simp [exTop] at h
  · rintro k a σ' sl _ rfl; simp [exTop] at h

theorem top12 (σ : List Sym) (ts : List Tok) : TopOK σ 12 ts := by
  intro _ sl h
  have := infix_le h
  omega
theorem topOther {σ : List Sym} {m : Nat} {ts : List Tok} (h : exTop σ = false) : TopOK σ m ts := by
  intro h'; rw [h] at h'; simp at h'

/-- A reduction to an operand. -/
theorem ginv_operand {input : List Tok} {σ : List Sym} {l : Nat} {us ws ts : List Tok} {e : Ex} (h : Stk σ l us)
    (hf : ¬ Operand σ) (hd : Derives (.expr 12 e) ws) (hi : us ++ ws ++ ts = input) : GInv input (.ex e :: σ) ts :=
  ⟨12, us ++ ws, .push h hd (.operand hf), top12 _ _, hi⟩
/-- A reduction to another symbol. -/
theorem ginv_other {input : List Tok} {σ : List Sym} {l : Nat} {us ws ts : List Tok} {s : Sym} (h : Stk σ l us)
    (hf : ¬ Operand σ) (h1 : ∀ e, s ≠ .ex e) (h2 : ∀ t, s ≠ .tok t) (hd : StandsFor s 12 ws)
    (hi : us ++ ws ++ ts = input) : GInv input (s :: σ) ts :=
  ⟨12, us ++ ws, .push h hd (.other hf h1 h2), top12 _ _, hi⟩
/-- A shift. -/
theorem ginv_shift {input : List Tok} {σ : List Sym} {ts : List Tok} {r} (h : GInv input σ ts) (hx : exTop σ = false)
    (hs : shift σ ts = some r) : GInv input r.1 r.2 := by
  obtain ⟨m, us, hst, _, hi⟩ := h
  cases ts with
  | nil => simp [shift] at hs
  | cons t ts =>
    simp only [shift, Option.some.injEq] at hs
    subst hs
    exact ⟨12, us ++ [t], .push hst rfl (.token hx), topOther rfl, by simpa using hi⟩

/-- A shift over an expression that no operator could take. -/
theorem ginv_shift_ex {input : List Tok} {e : Ex} {σ : List Sym} {ts : List Tok} {r}
    (h : GInv input (.ex e :: σ) ts) (hf : ¬ Operand (.ex e :: σ))
    (hb : ∀ o b σ' sl, σ = .tok (.p o) :: .ex b :: σ' → o.binOp.isSome = true → Tok.infix? ts.head? = some sl → o.level < sl)
    (hs : shift (.ex e :: σ) ts = some r) : GInv input r.1 r.2 := by
  obtain ⟨m, us, hst, ht, hi⟩ := h
  cases ts with
  | nil => simp [shift] at hs
  | cons t ts =>
    simp only [shift, Option.some.injEq] at hs
    subst hs
    refine ⟨12, us ++ [t], .push hst rfl ⟨hf, ?_, fun _ _ _ _ h => by simp at h, fun _ _ _ h => by simp at h⟩,
      topOther rfl, by simpa using hi⟩
    intro k a σ' sl hk hσ hl
    simp only [Sym.tok.injEq] at hk
    subst hk
    simp only [List.cons.injEq, Sym.ex.injEq] at hσ
    obtain ⟨rfl, rfl⟩ := hσ
    have := ht rfl sl (by simpa using hl)
    exact ⟨this.1, this.2, fun o b σ'' ho hob => hb o b σ'' sl ho hob (by simpa using hl)⟩

theorem not_operand_of {e : Ex} {σ : List Sym} (h : ∀ k σ', σ = .tok (.p k) :: σ' → k.unOp.isSome = true → exTop σ' = true) :
    ¬ Operand (.ex e :: σ) := by
  rintro ⟨e', k, σ', hσ, hk, hx⟩
  simp only [List.cons.injEq, Sym.ex.injEq] at hσ
  rw [h k σ' hσ.2 hk] at hx
  simp at hx

theorem derives_le {m : Nat} {e : Ex} {ts : List Tok} (h : Derives (.expr m e) ts) : m ≤ 12 := by
  generalize hp : Phrase.expr m e = ph at h
  cases h <;> simp only [Phrase.expr.injEq, reduceCtorEq] at hp <;> try omega
  next hl _ _ =>
    have := ((inLayer_iff _ _ _).1 hl).2
    have := level_le ‹Pun›
    omega

/-- A stronger layer is part of a weaker one. -/
theorem Derives.weaken {m : Nat} {e : Ex} {ts : List Tok} (h : Derives (.expr m e) ts) :
    ∀ {l : Nat}, l ≤ m → Derives (.expr l e) ts := by
  have hm := derives_le h
  intro l hl
  induction hd : m - l generalizing l with
  | zero => obtain rfl : l = m := by omega
            exact h
  | succ n ih => exact .stronger (by omega) (ih (l := l + 1) (by omega) (by omega))
theorem Derives.full {m : Nat} {e : Ex} {ts : List Tok} (h : Derives (.expr m e) ts) : Derives (.expr 0 e) ts :=
  h.weaken (Nat.zero_le _)

theorem reduceLeft_false {l : Nat} {la : Option Tok} (h : ¬ reduceLeft l la = true) {sl : Nat}
    (hs : Tok.infix? la = some sl) : l < sl := by
  unfold reduceLeft at h
  rw [hs] at h
  simpa using h

theorem stepEx_ginv {input : List Tok} {e : Ex} {σ : List Sym} {ts : List Tok} {r} (h : GInv input (.ex e :: σ) ts)
    (hs : stepEx e σ ts = some r) : GInv input r.1 r.2 := by
  unfold stepEx at hs
  split at hs
  · next st =>
    split at hs
    · simp only [Option.some.injEq] at hs; subst hs
      obtain ⟨m, us, hst, ht, hi⟩ := h
      cases hst with
      | push hst hh hl => exact ginv_other (s := .cl [e]) hst hl.free (by simp) (by simp) (.item (Derives.full hh)) hi
    · exact ginv_shift_ex h (not_operand_of (by simp [Pun.unOp])) (by
        rintro o b σ' sl hσ ho; simp only [List.cons.injEq, Sym.tok.injEq, Tok.p.injEq] at hσ; obtain ⟨rfl, _⟩ := hσ
        simp [Pun.binOp] at ho) hs
  · next t c st =>
    split at hs
    · next hr =>
      simp only [Option.some.injEq] at hs; subst hs
      obtain ⟨m, us, hst, ht, hi⟩ := h
      cases hst with
      | push hst he hle =>
      cases hst with
      | push hst hco hlco =>
      cases hst with
      | push hst hth hlt =>
      cases hst with
      | push hst hq hlq =>
      cases hst with
      | push hst hc hlc =>
      simp only [StandsFor] at hco hq
      subst hco; subst hq
      have hlf := hlq.left .cond c st 0 rfl rfl rfl
      refine ⟨0, _, .push hst (Derives.cond (Derives.weaken hc hlf.1) (Derives.full hth) (Derives.full he)) ⟨hlc.free,
        fun _ _ _ _ h => by simp at h, ?_, ?_⟩, ?_, by simpa using hi⟩
      · intro e' k a σ' _ hσ hk
        exact absurd (hlf.2.2 k a σ' hσ hk) (by omega)
      · intro e' k σ' _ hσ hk hx
        exact absurd ⟨c, k, σ', by rw [hσ], hk, hx⟩ hlq.free
      · intro _ sl hsl
        simp [reduceCond, hsl] at hr
    · exact ginv_shift_ex h (not_operand_of (by simp [Pun.unOp])) (by
        rintro o b σ' sl hσ ho; simp only [List.cons.injEq, Sym.tok.injEq, Tok.p.injEq] at hσ; obtain ⟨rfl, _⟩ := hσ
        simp [Pun.binOp] at ho) hs
  · next k a st _ _ =>
    split at hs
    · next o ho =>
      split at hs
      · next hr =>
        simp only [Option.some.injEq] at hs; subst hs
        obtain ⟨m, us, hst, ht, hi⟩ := h
        cases hst with
        | push hst he hle =>
        cases hst with
        | push hst hk hlk =>
        cases hst with
        | push hst ha hla =>
        simp only [StandsFor] at hk
        subst hk
        have hlf := hlk.left k a st k.level rfl rfl (bin_infix ho)
        have hrt := hle.right e k a st rfl rfl (by simp [ho])
        refine ⟨k.level, _, .push hst (Derives.bin ((inLayer_iff _ _ _).2 ⟨ho, rfl⟩) (Derives.weaken ha hlf.2.1)
          (Derives.weaken he hrt)) ⟨hla.free, fun _ _ _ _ h => by simp at h, ?_, ?_⟩, ?_, by simpa using hi⟩
        · intro e' k' a' σ' _ hσ hk'
          exact hlf.2.2 k' a' σ' hσ hk'
        · intro e' k' σ' _ hσ hk' hx
          exact absurd ⟨a, k', σ', by rw [hσ], hk', hx⟩ hlk.free
        · intro _ sl hsl
          unfold reduceLeft at hr
          rw [hsl] at hr
          have := binOp_level k (by simp [ho])
          exact ⟨this, by simpa using hr⟩
      · next hr =>
        refine ginv_shift_ex h (not_operand_of ?_) ?_ hs
        · intro k' σ' hσ _
          simp only [List.cons.injEq] at hσ
          rw [← hσ.2]; rfl
        · intro o' b σ' sl hσ _ hsl
          simp only [List.cons.injEq, Sym.tok.injEq, Tok.p.injEq] at hσ
          obtain ⟨rfl, _⟩ := hσ
          exact reduceLeft_false hr hsl
    · next ho =>
      refine ginv_shift_ex h (not_operand_of ?_) ?_ hs
      · intro k' σ' hσ _
        simp only [List.cons.injEq] at hσ
        rw [← hσ.2]; rfl
      · intro o' b σ' sl hσ ho' _
        simp only [List.cons.injEq, Sym.tok.injEq, Tok.p.injEq] at hσ
        obtain ⟨rfl, _⟩ := hσ
        rw [ho] at ho'; simp at ho'
  · next es st =>
    split at hs
    · exact ginv_shift_ex h (not_operand_of (by simp [Pun.unOp])) (by simp) hs
    · simp only [Option.some.injEq] at hs; subst hs
      obtain ⟨m, us, hst, ht, hi⟩ := h
      cases hst with
      | push hst he hle =>
      cases hst with
      | push hst hc hlc =>
      cases hst with
      | push hst ha hla =>
      simp only [StandsFor] at hc
      subst hc
      exact ginv_other (s := .args (es ++ [e])) hst hla.free (by simp) (by simp) (.args ha (Derives.full he))
        (by simpa using hi)
  · next es st =>
    split at hs
    · exact ginv_shift_ex h (not_operand_of (by simp [Pun.unOp])) (by simp) hs
    · simp only [Option.some.injEq] at hs; subst hs
      obtain ⟨m, us, hst, ht, hi⟩ := h
      cases hst with
      | push hst he hle =>
      cases hst with
      | push hst hc hlc =>
      cases hst with
      | push hst ha hla =>
      simp only [StandsFor] at hc
      subst hc
      exact ginv_other (s := .cl (es ++ [e])) hst hla.free (by simp) (by simp) (.items ha (Derives.full he))
        (by simpa using hi)
  · next st hne =>
    split at hs
    · simp only [Option.some.injEq] at hs; subst hs
      obtain ⟨m, us, hst, ht, hi⟩ := h
      cases hst with
      | push hst hh hl => exact ginv_other (s := .args [e]) hst hl.free (by simp) (by simp) (.arg (Derives.full hh)) hi
    · exact ginv_shift_ex h (not_operand_of (by simp [Pun.unOp])) (by
        rintro o b σ' sl hσ ho; simp only [List.cons.injEq, Sym.tok.injEq, Tok.p.injEq] at hσ; obtain ⟨rfl, _⟩ := hσ
        simp [Pun.binOp] at ho) hs
  · next k st _ _ hne _ _ _ =>
    split at hs
    · next f hf =>
      simp only [Option.some.injEq] at hs; subst hs
      obtain ⟨m, us, hst, ht, hi⟩ := h
      have hx : exTop st = false := by
        cases st with
        | nil => rfl
        | cons x st => cases x <;> first | rfl | exact absurd rfl (hne _ _)
      cases hst with
      | push hst he hle =>
      cases hst with
      | push hst hk hlk =>
      simp only [StandsFor] at hk
      subst hk
      have h12 := hle.pre e k st rfl rfl (by simp [hf]) hx
      subst h12
      obtain ⟨o, hm, rfl⟩ := unOp_prefix hf
      exact ginv_operand hst hlk.free (.un hm he) (by simpa using hi)
    · next hf =>
      refine ginv_shift_ex h (not_operand_of ?_) ?_ hs
      · intro k' σ' hσ hk'
        simp only [List.cons.injEq, Sym.tok.injEq, Tok.p.injEq] at hσ
        obtain ⟨rfl, _⟩ := hσ
        rw [hf] at hk'; simp at hk'
      · intro o' b σ' sl hσ
        simp only [List.cons.injEq] at hσ
        exact absurd hσ.2 (hne _ _)
  · next hne =>
    refine ginv_shift_ex h (not_operand_of ?_) ?_ hs
    · intro k' σ' hσ; exact absurd hσ (hne _ _)
    · intro k' _ σ' _ hσ; exact absurd hσ (hne _ _)

theorem base_derives {b : Sym} {v : Ex} {m : Nat} {ts : List Tok} (hb : b.base? = some v) (h : StandsFor b m ts) :
    Derives (.base v) ts := by
  cases b with
  | idn sc n =>
    simp only [Sym.base?, Option.some.injEq] at hb; subst hb
    simp only [StandsFor] at h; subst h
    exact .name sc n
  | ptr v p =>
    simp only [Sym.base?, Option.some.injEq] at hb; subst hb
    exact h
  | _ => simp [Sym.base?] at hb

theorem stepParen_ginv {input : List Tok} {σ σ' : List Sym} {ts : List Tok} (h : GInv input (.tok (.p .rparen) :: σ) ts)
    (hs : stepParen σ = some σ') : GInv input σ' ts := by
  obtain ⟨m, us, hst, ht, hi⟩ := h
  cases hst with
  | push hst h1 _ =>
  simp only [StandsFor] at h1; subst h1
  unfold stepParen at hs
  split at hs
  · split at hs
    · simp at hs
    · simp only [Option.some.injEq] at hs; subst hs
      cases hst with
      | push hst h2 _ =>
      cases hst with
      | push hst h3 hl =>
      simp only [StandsFor] at h3; subst h3
      exact ginv_operand hst hl.free (.paren (Derives.full h2)) (by simpa using hi)
  · simp only [Option.some.injEq] at hs; subst hs
    cases hst with
    | push hst h2 _ =>
    cases hst with
    | push hst h3 _ =>
    cases hst with
    | push hst h4 hl =>
    simp only [StandsFor, List.flatMap_nil, List.nil_append] at h3 h4; subst h3; subst h4
    exact ginv_operand hst hl.free (.call h2) (by simpa using hi)
  · simp only [Option.some.injEq] at hs; subst hs
    cases hst with
    | push hst h2 _ =>
    cases hst with
    | push hst h3 _ =>
    cases hst with
    | push hst h4 _ =>
    cases hst with
    | push hst h5 hl =>
    simp only [StandsFor] at h3 h4 h5; subst h3; subst h4; subst h5
    exact ginv_operand hst hl.free (.sys h2) (by simpa using hi)
  · split at hs
    · next hf =>
      simp only [Option.some.injEq] at hs; subst hs
      cases hst with
      | push hst h2 _ =>
      cases hst with
      | push hst h3 _ =>
      cases hst with
      | push hst h4 _ =>
      cases hst with
      | push hst h5 hl =>
      simp only [StandsFor] at h3 h4 h5; subst h3; subst h4; subst h5; subst hf
      exact ginv_operand hst hl.free (.signed h2) (by simpa using hi)
    · simp at hs
  · simp at hs

theorem stepBracket_ginv {input : List Tok} {σ σ' : List Sym} {ts : List Tok}
    (h : GInv input (.tok (.p .rbracket) :: σ) ts) (hs : stepBracket σ = some σ') : GInv input σ' ts := by
  obtain ⟨m, us, hst, ht, hi⟩ := h
  cases hst with
  | push hst h1 _ =>
  simp only [StandsFor] at h1; subst h1
  unfold stepBracket at hs
  split at hs
  · simp only [Option.map_eq_some_iff] at hs
    obtain ⟨v, hv, rfl⟩ := hs
    cases hst with
    | push hst h2 _ =>
    cases hst with
    | push hst h3 _ =>
    cases hst with
    | push hst h4 hl =>
    simp only [StandsFor] at h3; subst h3
    exact ginv_other hst hl.free (by simp) (by simp) (.index (base_derives hv h4) (Derives.full h2)) (by simpa using hi)
  · simp only [Option.map_eq_some_iff] at hs
    obtain ⟨v, hv, rfl⟩ := hs
    cases hst with
    | push hst h2 _ =>
    cases hst with
    | push hst h3 _ =>
    cases hst with
    | push hst h4 _ =>
    cases hst with
    | push hst h5 _ =>
    cases hst with
    | push hst h6 hl =>
    simp only [StandsFor] at h3 h5; subst h3; subst h5
    exact ginv_operand hst hl.free (.part (base_derives hv h6) (Derives.full h4) (Derives.full h2)) (by simpa using hi)
  · simp only [Option.map_eq_some_iff] at hs
    obtain ⟨v, hv, rfl⟩ := hs
    cases hst with
    | push hst h2 _ =>
    cases hst with
    | push hst h3 _ =>
    cases hst with
    | push hst h4 _ =>
    cases hst with
    | push hst h5 _ =>
    cases hst with
    | push hst h6 hl =>
    simp only [StandsFor] at h3 h5; subst h3; subst h5
    exact ginv_operand hst hl.free (.partUp (base_derives hv h6) (Derives.full h4) (Derives.full h2)) (by simpa using hi)
  · simp only [Option.map_eq_some_iff] at hs
    obtain ⟨v, hv, rfl⟩ := hs
    cases hst with
    | push hst h2 _ =>
    cases hst with
    | push hst h3 _ =>
    cases hst with
    | push hst h4 _ =>
    cases hst with
    | push hst h5 _ =>
    cases hst with
    | push hst h6 hl =>
    simp only [StandsFor] at h3 h5; subst h3; subst h5
    exact ginv_operand hst hl.free (.partDown (base_derives hv h6) (Derives.full h4) (Derives.full h2)) (by simpa using hi)
  · simp at hs

theorem stepBrace_ginv {input : List Tok} {σ σ' : List Sym} {ts : List Tok}
    (h : GInv input (.tok (.p .rbrace) :: σ) ts) (hs : stepBrace σ = some σ') : GInv input σ' ts := by
  obtain ⟨m, us, hst, ht, hi⟩ := h
  cases hst with
  | push hst h1 _ =>
  simp only [StandsFor] at h1; subst h1
  unfold stepBrace at hs
  split at hs
  · simp only [Option.some.injEq] at hs; subst hs
    cases hst with
    | push hst h2 _ =>
    cases hst with
    | push hst h3 _ =>
    cases hst with
    | push hst h4 hl =>
    simp only [StandsFor] at h4; subst h4
    obtain ⟨ws, hw, rfl⟩ := h2
    exact ginv_operand hst hl.free (.repeated (Derives.full h3) hw) (by simpa using hi)
  · simp only [Option.some.injEq] at hs; subst hs
    cases hst with
    | push hst h2 _ =>
    cases hst with
    | push hst h3 hl =>
    simp only [StandsFor] at h3; subst h3
    exact ginv_other hst hl.free (by simp) (by simp) ⟨_, h2, rfl⟩ (by simpa using hi)
  · simp at hs

theorem step_ginv {input : List Tok} {σ : List Sym} {ts : List Tok} {r} (h : GInv input σ ts) (hs : step σ ts = some r) :
    GInv input r.1 r.2 := by
  unfold step at hs
  split at hs
  · exact stepEx_ginv h hs
  · split at hs
    · exact ginv_shift h rfl hs
    · exact ginv_shift h rfl hs
    · exact ginv_shift h rfl hs
    · simp only [Option.some.injEq] at hs; subst hs
      obtain ⟨m, us, hst, ht, hi⟩ := h
      cases hst with
      | push hst h1 hl => exact ginv_operand hst hl.free (.operand (base_derives rfl h1)) hi
  · split at hs
    · exact ginv_shift h rfl hs
    · exact ginv_shift h rfl hs
    · simp only [Option.some.injEq] at hs; subst hs
      obtain ⟨m, us, hst, ht, hi⟩ := h
      cases hst with
      | push hst h1 hl => exact ginv_operand hst hl.free (.operand (base_derives rfl h1)) hi
  · split at hs
    · exact ginv_shift h rfl hs
    · simp only [Option.some.injEq] at hs; subst hs
      obtain ⟨m, us, hst, ht, hi⟩ := h
      cases hst with
      | push hst h1 hl =>
        obtain ⟨ws, hw, rfl⟩ := h1
        exact ginv_operand hst hl.free (.concat hw) hi
  · simp only [Option.some.injEq] at hs; subst hs
    obtain ⟨m, us, hst, ht, hi⟩ := h
    cases hst with
    | push hst h1 hl => simp only [StandsFor] at h1; subst h1; exact ginv_operand hst hl.free (.int _) hi
  · simp only [Option.some.injEq] at hs; subst hs
    obtain ⟨m, us, hst, ht, hi⟩ := h
    cases hst with
    | push hst h1 hl => simp only [StandsFor] at h1; subst h1; exact ginv_operand hst hl.free (.flt _) hi
  · simp only [Option.some.injEq] at hs; subst hs
    obtain ⟨m, us, hst, ht, hi⟩ := h
    cases hst with
    | push hst h1 hl => simp only [StandsFor] at h1; subst h1; exact ginv_operand hst hl.free (.str _) hi
  · simp only [Option.some.injEq] at hs; subst hs
    obtain ⟨m, us, hst, ht, hi⟩ := h
    cases hst with
    | push hst h1 _ =>
    cases hst with
    | push hst h2 hl =>
    simp only [StandsFor] at h1 h2; subst h1; subst h2
    exact ginv_other hst hl.free (by simp) (by simp) rfl (by simpa using hi)
  · split at hs
    · exact ginv_shift h rfl hs
    · simp only [Option.some.injEq] at hs; subst hs
      obtain ⟨m, us, hst, ht, hi⟩ := h
      cases hst with
      | push hst h1 _ =>
      cases hst with
      | push hst h2 hl =>
      simp only [StandsFor] at h1 h2; subst h1; subst h2
      exact ginv_operand hst hl.free (.sysPlain _) (by simpa using hi)
  · simp only [Option.some.injEq] at hs; subst hs
    obtain ⟨m, us, hst, ht, hi⟩ := h
    cases hst with
    | push hst h1 hl =>
    simp only [StandsFor] at h1; subst h1
    exact ginv_other hst hl.free (by simp) (by simp) rfl (by simpa using hi)
  · simp only [Option.some.injEq] at hs; subst hs
    obtain ⟨m, us, hst, ht, hi⟩ := h
    cases hst with
    | push hst h1 _ =>
    cases hst with
    | push hst h2 hl =>
    simp only [StandsFor] at h1 h2; subst h1; subst h2
    refine ginv_other hst hl.free (by simp) (by simp) rfl ?_
    simpa using hi
  · simp only [Option.map_eq_some_iff] at hs
    obtain ⟨σ', h1, rfl⟩ := hs
    exact stepParen_ginv h h1
  · simp only [Option.map_eq_some_iff] at hs
    obtain ⟨σ', h1, rfl⟩ := hs
    exact stepBracket_ginv h h1
  · simp only [Option.map_eq_some_iff] at hs
    obtain ⟨σ', h1, rfl⟩ := hs
    exact stepBrace_ginv h h1
  · split at hs
    · simp only [Option.some.injEq] at hs; subst hs
      obtain ⟨m, us, hst, ht, hi⟩ := h
      refine ginv_other hst ?_ (by simp) (by simp) (Derives.noArg) (by simpa using hi)
      rintro ⟨_, _, _, h, _⟩; simp at h
    · exact ginv_shift h rfl hs
  · next hne _ _ _ _ _ _ _ _ _ _ _ _ _ _ =>
    refine ginv_shift h ?_ hs
    unfold exTop
    split
    · exact absurd rfl (hne _ _)
    · rfl

theorem parseN_ginv {input : List Tok} : ∀ (n : Nat) (σ : List Sym) (ts : List Tok) (e : Ex), GInv input σ ts →
    parseN n σ ts = some e → Derives (.expr 0 e) input
  | 0, _, _, _, _, h => by simp [parseN] at h
  | n + 1, σ, ts, e, hi, h => by
    by_cases hf : ∃ e', σ = [Sym.ex e'] ∧ ts = []
    · obtain ⟨e', rfl, rfl⟩ := hf
      simp only [parseN, Option.some.injEq] at h
      subst h
      obtain ⟨m, us, hst, ht, hi⟩ := hi
      cases hst with
      | push hst h1 _ =>
      cases hst
      simp only [List.nil_append, List.append_nil] at hi
      subst hi
      exact Derives.full h1
    · cases hs : step σ ts with
      | none => rw [parseN_stuck n σ ts (fun e' h1 h2 => hf ⟨e', h1, h2⟩) hs] at h; simp at h
      | some x =>
        rw [parseN_step n σ ts x.1 x.2 hs] at h
        exact parseN_ginv n x.1 x.2 e (step_ginv hi hs) h

/-! ## C81 -/

/-- C81.  The parser reads a list of tokens as the expression `e` exactly if the grammar of Verilog derives `e` from
these tokens: the operators group by the strength and associativity of the language, every construct the grammar has is
accepted, and nothing else is. -/
theorem C81_reads_the_grammar (ts : List Tok) (e : Ex) : (∃ n, parseN n [] ts = some e) ↔ Derives (.expr 0 e) ts := by
  constructor
  · rintro ⟨n, hn⟩
    exact parseN_ginv n [] ts e ⟨12, [], .nil, topOther rfl, rfl⟩ hn
  · intro h
    have := derives_parsed h [] [] rfl (Or.inr (Or.inl rfl)) (by simp [Follow]) (fun sl h => by simp [Tok.infix?] at h)
    rw [List.append_nil] at this
    exact this.parse

/-- C81 for texts. -/
theorem C81_reads_texts (text : Str) (e : Ex) :
    ParsesTo text e ↔ ∃ ts, lex text = some ts ∧ Derives (.expr 0 e) ts := by
  constructor
  · rintro ⟨ts, hl, h⟩; exact ⟨ts, hl, (C81_reads_the_grammar ts e).1 h⟩
  · rintro ⟨ts, hl, h⟩; exact ⟨ts, hl, (C81_reads_the_grammar ts e).2 h⟩

/-- C81.  The grammar is unambiguous: the layers leave one tree for a list of tokens. -/
theorem C81_one_tree (ts : List Tok) (e e' : Ex) (h : Derives (.expr 0 e) ts) (h' : Derives (.expr 0 e') ts) : e = e' := by
  obtain ⟨n, hn⟩ := (C81_reads_the_grammar ts e).2 h
  obtain ⟨n', hn'⟩ := (C81_reads_the_grammar ts e').2 h'
  have h1 := parseN_mono n (max n n') _ _ _ (Nat.le_max_left ..) hn
  have h2 := parseN_mono n' (max n n') _ _ _ (Nat.le_max_right ..) hn'
  rw [h1] at h2
  simpa using h2

/-- C81, two operators side by side: the stronger one is applied first, and of two equally strong ones the left one,
whatever their operands are. -/
theorem C81_two_operators (l l' : Nat) (k k' : Pun) (o o' : Op) (hk : InLayer l k o) (hk' : InLayer l' k' o')
    (a b c : Ex) (ts us ws : List Tok) (ha : Derives (.expr 12 a) ts) (hb : Derives (.expr 12 b) us)
    (hc : Derives (.expr 12 c) ws) (e : Ex) :
    (∃ n, parseN n [] (ts ++ .p k :: (us ++ .p k' :: ws)) = some e) ↔
      e = if l < l' then .bin o a (.bin o' b c) else .bin o' (.bin o a b) c := by
  have hl := ((inLayer_iff _ _ _).1 hk).2
  have hl' := ((inLayer_iff _ _ _).1 hk').2
  have h11 := level_le k
  have h11' := level_le k'
  have hd : Derives (.expr 0 (if l < l' then .bin o a (.bin o' b c) else .bin o' (.bin o a b) c))
      (ts ++ .p k :: (us ++ .p k' :: ws)) := by
    split
    · next h =>
      exact (Derives.bin hk (ha.weaken (by omega)) ((Derives.bin hk' (hb.weaken (by omega)) (hc.weaken (by omega))).weaken
        (by omega))).full
    · next h =>
      have := (Derives.bin hk' ((Derives.bin hk (ha.weaken (by omega)) (hb.weaken (by omega))).weaken (l := l')
        (by omega)) (hc.weaken (by omega))).full
      simpa using this
  rw [C81_reads_the_grammar]
  constructor
  · intro h; exact C81_one_tree _ _ _ h hd
  · rintro rfl; exact hd

/-- C81, a defect of the grammar: a comma before the first argument of a call is accepted and dropped, whatever the
argument is; `f(, x)` is read as `f(x)`. -/
theorem C81_stray_comma (f : Str) (x : Ex) (ts : List Tok) (hx : Derives (.expr 0 x) ts) :
    ∃ n, parseN n [] (.id f :: .p .lparen :: .p .comma :: (ts ++ [.p .rparen])) = some (.call f [x]) := by
  rw [C81_reads_the_grammar]
  have := Derives.call (f := f) (Derives.args .noArg hx)
  simpa using this.full

/-- The tokens of `a + b * c ? -x : {2{y}}`. -/
def c81ts : List Tok :=
  [.id "a".toList, .p .plus, .id "b".toList, .p .times, .id "c".toList, .p .cond, .p .minus, .id "x".toList, .p .colon,
    .p .lbrace, .int "2".toList, .p .lbrace, .id "y".toList, .p .rbrace, .p .rbrace]

example : lex "a + b * c ? -x : {2{y}}".toList = some c81ts := by decide +kernel

theorem c81_name (n : Str) : Derives (.expr 12 (.ident [] n)) [.id n] := .operand (.name [] n)

/-- A derivation that uses every layer: the conditional operator over a sum whose right operand is a product, a prefix
operator, and a repetition. -/
theorem c81_derives : Derives (.expr 0 (.cond (.bin .plus (.ident [] "a".toList) (.bin .times (.ident [] "b".toList)
    (.ident [] "c".toList))) (.un .uminus (.ident [] "x".toList)) (.rep (.intc "2".toList) (.concat [.ident [] "y".toList]))))
    c81ts := by
  have hp : InLayer 9 .plus .plus := (inLayer_iff _ _ _).2 ⟨rfl, rfl⟩
  have ht : InLayer 10 .times .times := (inLayer_iff _ _ _).2 ⟨rfl, rfl⟩
  have hs := Derives.bin hp ((c81_name "a".toList).weaken (by decide)) (Derives.bin ht ((c81_name "b".toList).weaken (by decide))
    ((c81_name "c".toList).weaken (by decide)))
  exact Derives.cond (hs.weaken (by decide)) (Derives.un (k := .minus) (o := some .uminus) (by decide) (c81_name "x".toList)).full
    (Derives.repeated (Derives.int "2".toList).full (.item (c81_name "y".toList).full)).full

example : ∃ n, parseN n [] c81ts = some (.cond (.bin .plus (.ident [] "a".toList) (.bin .times (.ident [] "b".toList)
    (.ident [] "c".toList))) (.un .uminus (.ident [] "x".toList)) (.rep (.intc "2".toList) (.concat [.ident [] "y".toList]))) :=
  (C81_reads_the_grammar _ _).2 c81_derives

/-- Nothing is derived from `a b`: no expression, and so no reading. -/
example : ¬ ∃ e, Derives (.expr 0 e) [.id "a".toList, .id "b".toList] := by
  rintro ⟨e, h⟩
  obtain ⟨n, hn⟩ := (C81_reads_the_grammar _ _).2 h
  have := parseN_mono n (n + 9) _ _ _ (by omega) hn
  simp [parseN, step, stepEx, shift] at this

example : ∃ n, parseN n [] [.id "a".toList, .p .minus, .id "b".toList, .p .plus, .id "c".toList] =
    some (.bin .plus (.bin .minus (.ident [] "a".toList) (.ident [] "b".toList)) (.ident [] "c".toList)) :=
  (C81_two_operators 9 9 .minus .plus .minus .plus ((inLayer_iff _ _ _).2 ⟨rfl, rfl⟩) ((inLayer_iff _ _ _).2 ⟨rfl, rfl⟩)
    _ _ _ _ _ _ (c81_name "a".toList) (c81_name "b".toList) (c81_name "c".toList) _).2 rfl

end Pyv
