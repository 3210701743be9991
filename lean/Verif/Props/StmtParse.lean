import Verif.Props.StmtPrint
import Verif.Props.ParseProps
import Verif.StmtParser
/-
  The parser reads the tokens of a printed statement as that statement.
-/
namespace Pyv

/-- A stack symbol that no action of the expression parser takes from the stack as its lowest one. -/
def isTerm : Sym → Bool
  | .tok (.p .semicolon) | .tok (.p .comma) | .tok (.p .colon) | .tok (.p .rparen) | .tok (.p .equals) | .tok (.p .rbracket) => true
  | _ => false

/-- What an action takes from the stack (`P`) and what it puts there instead. -/
def OkP (P : List Sym) (x : Sym) : Prop :=
  (∀ p, P.getLast? = some p → isTerm p = false) ∧
  (P.length ≤ 1 ∨ (∀ e, P.getLast? ≠ some (.ex e)) ∨
    (∃ k o a b, P = [.ex b, .tok (.p k), .ex a] ∧ k.binOp = some o ∧ x = .ex (.bin o a b)) ∨
    (∃ a t c, P = [.ex a, .tok (.p .colon), .ex t, .tok (.p .cond), .ex c] ∧ x = .ex (.cond c t a)))

/-- An action replaces a few top symbols by one. -/
def Shape (σ σ' : List Sym) : Prop := ∃ x P rest, σ = P ++ rest ∧ σ' = x :: rest ∧ OkP P x

theorem shift_shape {σ σ' : List Sym} {ts ts' : List Tok} (h : shift σ ts = some (σ', ts')) : Shape σ σ' := by
  unfold shift at h
  split at h
  · simp at h
  · simp only [Option.some.injEq, Prod.mk.injEq] at h
    exact ⟨_, [], σ, rfl, h.1.symm, by simp [OkP]⟩

theorem shape_of (x : Sym) (P rest : List Sym) (h : OkP P x) : Shape (P ++ rest) (x :: rest) := ⟨x, P, rest, rfl, rfl, h⟩

theorem okP_of (x : Sym) (P : List Sym) (p : Sym) (hp : P.getLast? = some p) (h1 : isTerm p = false) (h2 : ∀ e, p ≠ .ex e) : OkP P x := by
  refine ⟨fun q hq => by rw [hp] at hq; simp only [Option.some.injEq] at hq; subst hq; exact h1, .inr (.inl fun e he => ?_)⟩
  rw [hp] at he; simp only [Option.some.injEq] at he; exact h2 e he

theorem stepParen_shape {σ σ' : List Sym} (h : stepParen σ = some σ') : Shape (.tok (.p .rparen) :: σ) σ' := by
  unfold stepParen at h
  split at h
  · split at h
    · simp at h
    · simp only [Option.some.injEq] at h; subst h
      exact shape_of _ [_, _, _] _ (okP_of _ _ _ rfl rfl (by simp))
  · simp only [Option.some.injEq] at h; subst h
    exact shape_of _ [_, _, _, _] _ (okP_of _ _ _ rfl rfl (by simp))
  · simp only [Option.some.injEq] at h; subst h
    exact shape_of _ [_, _, _, _, _] _ (okP_of _ _ _ rfl rfl (by simp))
  · split at h
    · simp only [Option.some.injEq] at h; subst h
      exact shape_of _ [_, _, _, _, _] _ (okP_of _ _ _ rfl rfl (by simp))
    · simp at h
  · simp at h

theorem base_term {b : Sym} {v : Ex} (h : b.base? = some v) : isTerm b = false ∧ ∀ e, b ≠ .ex e := by
  cases b <;> first | (simp [Sym.base?] at h; done) | exact ⟨rfl, by simp⟩

theorem stepBracket_shape {σ σ' : List Sym} (h : stepBracket σ = some σ') : Shape (.tok (.p .rbracket) :: σ) σ' := by
  unfold stepBracket at h
  split at h
  · simp only [Option.map_eq_some_iff] at h; obtain ⟨v, hv, rfl⟩ := h
    exact shape_of _ [_, _, _, _] _ (okP_of _ _ _ rfl (base_term hv).1 (base_term hv).2)
  · simp only [Option.map_eq_some_iff] at h; obtain ⟨v, hv, rfl⟩ := h
    exact shape_of _ [_, _, _, _, _, _] _ (okP_of _ _ _ rfl (base_term hv).1 (base_term hv).2)
  · simp only [Option.map_eq_some_iff] at h; obtain ⟨v, hv, rfl⟩ := h
    exact shape_of _ [_, _, _, _, _, _] _ (okP_of _ _ _ rfl (base_term hv).1 (base_term hv).2)
  · simp only [Option.map_eq_some_iff] at h; obtain ⟨v, hv, rfl⟩ := h
    exact shape_of _ [_, _, _, _, _, _] _ (okP_of _ _ _ rfl (base_term hv).1 (base_term hv).2)
  · simp at h

theorem stepBrace_shape {σ σ' : List Sym} (h : stepBrace σ = some σ') : Shape (.tok (.p .rbrace) :: σ) σ' := by
  unfold stepBrace at h
  split at h
  · simp only [Option.some.injEq] at h; subst h
    exact shape_of _ [_, _, _, _] _ (okP_of _ _ _ rfl rfl (by simp))
  · simp only [Option.some.injEq] at h; subst h
    exact shape_of _ [_, _, _] _ (okP_of _ _ _ rfl rfl (by simp))
  · simp at h

theorem okP_one (x p : Sym) (h : isTerm p = false) : OkP [p] x :=
  ⟨fun q hq => by simp at hq; subst hq; exact h, .inl (by simp)⟩

theorem unOp_term {k : Pun} {f : Ex → Ex} (h : k.unOp = some f) : isTerm (.tok (.p k)) = false := by
  cases k <;> first | rfl | (simp [Pun.unOp] at h; done)

theorem stepEx_shape {e : Ex} {σ σ' : List Sym} {ts ts' : List Tok} (h : stepEx e σ ts = some (σ', ts')) : Shape (.ex e :: σ) σ' := by
  unfold stepEx at h
  split at h
  · split at h
    · simp only [Option.some.injEq, Prod.mk.injEq] at h; rw [← h.1]
      exact shape_of _ [_] _ (okP_one _ _ rfl)
    · exact shift_shape h
  · split at h
    · simp only [Option.some.injEq, Prod.mk.injEq] at h; rw [← h.1]
      exact shape_of _ [_, _, _, _, _] _ ⟨fun p hp => by simp at hp; subst hp; rfl, .inr (.inr (.inr ⟨_, _, _, rfl, rfl⟩))⟩
    · exact shift_shape h
  · split at h
    · next o ho =>
      split at h
      · simp only [Option.some.injEq, Prod.mk.injEq] at h; rw [← h.1]
        exact shape_of _ [_, _, _] _ ⟨fun p hp => by simp at hp; subst hp; rfl, .inr (.inr (.inl ⟨_, _, _, _, rfl, ho, rfl⟩))⟩
      · exact shift_shape h
    · exact shift_shape h
  · split at h
    · exact shift_shape h
    · simp only [Option.some.injEq, Prod.mk.injEq] at h; rw [← h.1]
      exact shape_of _ [_, _, _] _ (okP_of _ _ _ rfl rfl (by simp))
  · split at h
    · exact shift_shape h
    · simp only [Option.some.injEq, Prod.mk.injEq] at h; rw [← h.1]
      exact shape_of _ [_, _, _] _ (okP_of _ _ _ rfl rfl (by simp))
  · split at h
    · simp only [Option.some.injEq, Prod.mk.injEq] at h; rw [← h.1]
      exact shape_of _ [_] _ (okP_one _ _ rfl)
    · exact shift_shape h
  · split at h
    · next f hf =>
      simp only [Option.some.injEq, Prod.mk.injEq] at h; rw [← h.1]
      exact shape_of _ [_, _] _ (okP_of _ _ _ rfl (unOp_term hf) (by simp))
    · exact shift_shape h
  · exact shift_shape h

theorem step_shape {σ σ' : List Sym} {ts ts' : List Tok} (h : step σ ts = some (σ', ts')) : Shape σ σ' := by
  unfold step at h
  split at h
  · exact stepEx_shape h
  · split at h
    · exact shift_shape h
    · exact shift_shape h
    · exact shift_shape h
    · simp only [Option.some.injEq, Prod.mk.injEq] at h; rw [← h.1]; exact shape_of _ [_] _ (okP_one _ _ rfl)
  · split at h
    · exact shift_shape h
    · exact shift_shape h
    · simp only [Option.some.injEq, Prod.mk.injEq] at h; rw [← h.1]; exact shape_of _ [_] _ (okP_one _ _ rfl)
  · split at h
    · exact shift_shape h
    · simp only [Option.some.injEq, Prod.mk.injEq] at h; rw [← h.1]; exact shape_of _ [_] _ (okP_one _ _ rfl)
  · simp only [Option.some.injEq, Prod.mk.injEq] at h; rw [← h.1]; exact shape_of _ [_] _ (okP_one _ _ rfl)
  · simp only [Option.some.injEq, Prod.mk.injEq] at h; rw [← h.1]; exact shape_of _ [_] _ (okP_one _ _ rfl)
  · simp only [Option.some.injEq, Prod.mk.injEq] at h; rw [← h.1]; exact shape_of _ [_] _ (okP_one _ _ rfl)
  · simp only [Option.some.injEq, Prod.mk.injEq] at h; rw [← h.1]
    exact shape_of _ [_, _] _ (okP_of _ _ _ rfl rfl (by simp))
  · split at h
    · exact shift_shape h
    · simp only [Option.some.injEq, Prod.mk.injEq] at h; rw [← h.1]
      exact shape_of _ [_, _] _ (okP_of _ _ _ rfl rfl (by simp))
  · simp only [Option.some.injEq, Prod.mk.injEq] at h; rw [← h.1]; exact shape_of _ [_] _ (okP_one _ _ rfl)
  · simp only [Option.some.injEq, Prod.mk.injEq] at h; rw [← h.1]
    exact shape_of _ [_, _] _ (okP_of _ _ _ rfl rfl (by simp))
  · simp only [Option.map_eq_some_iff, Prod.mk.injEq] at h; obtain ⟨s, hs, rfl, _⟩ := h; exact stepParen_shape hs
  · simp only [Option.map_eq_some_iff, Prod.mk.injEq] at h; obtain ⟨s, hs, rfl, _⟩ := h; exact stepBracket_shape hs
  · simp only [Option.map_eq_some_iff, Prod.mk.injEq] at h; obtain ⟨s, hs, rfl, _⟩ := h; exact stepBrace_shape hs
  · split at h
    · simp only [Option.some.injEq, Prod.mk.injEq] at h; rw [← h.1]
      exact ⟨_, [], _, rfl, rfl, by simp [OkP]⟩
    · exact shift_shape h
  · exact shift_shape h

/-- How a stack splits above its two lowest symbols. -/
theorem split_bottom {X P rest : List Sym} {s1 e0 : Sym} (h : X ++ [s1, e0] = P ++ rest) :
    (rest = [] ∧ P = X ++ [s1, e0]) ∨ (rest = [e0] ∧ P = X ++ [s1]) ∨ ∃ Y, rest = Y ++ [s1, e0] := by
  induction X generalizing P with
  | nil =>
    cases P with
    | nil => exact .inr (.inr ⟨[], by simpa using h.symm⟩)
    | cons p P =>
      simp only [List.nil_append, List.cons_append, List.cons.injEq] at h
      obtain ⟨rfl, h⟩ := h
      cases P with
      | nil => exact .inr (.inl ⟨by simpa using h.symm, rfl⟩)
      | cons q P =>
        simp only [List.cons_append, List.cons.injEq] at h
        obtain ⟨rfl, h⟩ := h
        have := List.append_eq_nil_iff.mp h.symm
        exact .inl ⟨this.2, by simp [this.1]⟩
  | cons x X ih =>
    cases P with
    | nil => exact .inr (.inr ⟨x :: X, by simpa using h.symm⟩)
    | cons p P =>
      simp only [List.cons_append, List.cons.injEq] at h
      obtain ⟨rfl, h⟩ := h
      rcases ih h with ⟨h1, h2⟩ | ⟨h1, h2⟩ | h1
      · exact .inl ⟨h1, by simp [h2]⟩
      · exact .inr (.inl ⟨h1, by simp [h2]⟩)
      · exact .inr (.inr h1)

/-- An expression with a terminator on it stays at the bottom of the stack. -/
theorem step_term {X : List Sym} {s1 : Sym} {e0 : Ex} (hs : isTerm s1 = true) {σ' : List Sym} {ts ts' : List Tok}
    (h : step (X ++ [s1, .ex e0]) ts = some (σ', ts')) : ∃ Y, σ' = Y ++ [s1, .ex e0] := by
  obtain ⟨x, P, rest, h1, h2, h3⟩ := step_shape h
  rcases split_bottom h1 with ⟨hr, hP⟩ | ⟨hr, hP⟩ | ⟨Y, hY⟩
  · exfalso
    rcases h3.2 with h | h | ⟨k, o, a, b, h, ho, _⟩ | ⟨a, t, c, h, _⟩
    · rw [hP] at h; simp at h
    · exact h e0 (by rw [hP]; simp)
    · rw [hP] at h
      rcases X with _ | ⟨x1, _ | ⟨x2, X⟩⟩
      · simp at h
      · simp at h; rw [h.2.1] at hs; cases k <;> simp [isTerm] at hs <;> simp [Pun.binOp] at ho
      · have := congrArg List.length h; simp at this
    · rw [hP] at h
      rcases X with _ | ⟨x1, _ | ⟨x2, _ | ⟨x3, _ | ⟨x4, X⟩⟩⟩⟩
      · simp at h
      · simp at h
      · simp at h
      · simp at h; rw [h.2.2.2.1] at hs; simp [isTerm] at hs
      · have := congrArg List.length h; simp at this
  · exfalso
    have := h3.1 s1 (by rw [hP]; simp)
    rw [hs] at this; simp at this
  · exact ⟨x :: Y, by rw [h2, hY]; rfl⟩

theorem St.term {σ : List Sym} {ts : List Tok} {σ' : List Sym} {ts' : List Tok} (h : St σ ts σ' ts') {s1 : Sym} {e0 : Ex}
    (hs : isTerm s1 = true) (hσ : ∃ X, σ = X ++ [s1, .ex e0]) : ∃ Y, σ' = Y ++ [s1, .ex e0] := by
  induction h with
  | refl => exact hσ
  | head h _ ih =>
    obtain ⟨X, rfl⟩ := hσ
    exact ih (step_term hs h)

/-- A stack from which no left side of an assignment comes. -/
def Bot (σ : List Sym) : Prop :=
  (∃ X s1 e0, σ = X ++ [s1, .ex e0]) ∨ (∃ o a b, σ = [.ex (.bin o a b)]) ∨ (∃ c t f, σ = [.ex (.cond c t f)])

theorem step_bot {σ σ' : List Sym} {ts ts' : List Tok} (hσ : Bot σ) (h : step σ ts = some (σ', ts')) : Bot σ' := by
  obtain ⟨x, P, rest, h1, h2, h3⟩ := step_shape h
  rcases hσ with ⟨X, s1, e0, rfl⟩ | hσ | hσ
  · rcases split_bottom h1 with ⟨hr, hP⟩ | ⟨hr, hP⟩ | ⟨Y, hY⟩
    · rcases h3.2 with h | h | ⟨k, o, a, b, _, _, h⟩ | ⟨a, t, c, _, h⟩
      · rw [hP] at h; simp at h
      · exact absurd (by rw [hP]; simp) (h e0)
      · exact .inr (.inl ⟨o, a, b, by rw [h2, hr, h]⟩)
      · exact .inr (.inr ⟨c, t, a, by rw [h2, hr, h]⟩)
    · exact .inl ⟨[], x, e0, by rw [h2, hr]; rfl⟩
    · exact .inl ⟨x :: Y, s1, e0, by rw [h2, hY]; rfl⟩
  · obtain ⟨o, a, b, rfl⟩ := hσ
    cases ts with
    | nil => simp [step, stepEx, shift] at h
    | cons t ts =>
      simp only [step, stepEx, shift, Option.some.injEq, Prod.mk.injEq] at h
      exact .inl ⟨[], .tok t, _, h.1.symm⟩
  · obtain ⟨o, a, b, rfl⟩ := hσ
    cases ts with
    | nil => simp [step, stepEx, shift] at h
    | cons t ts =>
      simp only [step, stepEx, shift, Option.some.injEq, Prod.mk.injEq] at h
      exact .inl ⟨[], .tok t, _, h.1.symm⟩

theorem St.bot {σ σ' : List Sym} {ts ts' : List Tok} (h : St σ ts σ' ts') (hσ : Bot σ) : Bot σ' := by
  induction h with
  | refl => exact hσ
  | head h _ ih => exact ih (step_bot hσ h)

theorem bot_left {σ : List Sym} (h : Bot σ) : leftOf σ = none := by
  rcases h with ⟨X, s1, e0, rfl⟩ | ⟨o, a, b, rfl⟩ | ⟨c, t, f, rfl⟩
  · have : ∀ x y ys, leftOf (x :: y :: ys) = none := by intro x y ys; cases x <;> first | rfl | (rename_i e; cases e <;> rfl)
    rcases X with _ | ⟨x, X⟩
    · exact this _ _ _
    · cases X with
      | nil => exact this _ _ _
      | cons y X => exact this _ _ _
  · rfl
  · rfl

/-- The actions of the statement parser. -/
inductive SSt : List OSym → List Sym → List Tok → List OSym → List Sym → List Tok → Prop
  | refl {o i t} : SSt o i t o i t
  | head {o i t o1 i1 t1 o2 i2 t2} : sstep o i t = some (o1, i1, t1) → SSt o1 i1 t1 o2 i2 t2 → SSt o i t o2 i2 t2

theorem SSt.trans {o i t o1 i1 t1 o2 i2 t2} (h : SSt o i t o1 i1 t1) (h2 : SSt o1 i1 t1 o2 i2 t2) : SSt o i t o2 i2 t2 := by
  induction h with
  | refl => exact h2
  | head h _ ih => exact .head h (ih h2)

theorem SSt.one {o i t o1 i1 t1} (h : sstep o i t = some (o1, i1, t1)) : SSt o i t o1 i1 t1 := .head h .refl

/-- The token is a terminator of the expressions in statements. -/
def Tok.ends (t : Tok) : Bool := isTerm (.tok t)

/-- A stack on which an expression is read. -/
def ExTop : List OSym → Prop
  | .asg _ _ :: _ => True
  | .head _ :: _ => True
  | .forC _ _ :: _ => True
  | .conds _ :: _ => True
  | _ => False

theorem sstep_inner {o : List OSym} (ho : ExTop o) {i : List Sym} {ts : List Tok}
    (h : ∀ e t ts', i = [.ex e] → ts = t :: ts' → t.ends = false) : sstep o i ts = innerStep o i ts := by
  have hno : ∀ e k ts', isTerm (.tok (.p k)) = true → i = [.ex e] → ts = .p k :: ts' → False := by
    intro e k ts' hk h1 h2
    have := h e _ _ h1 h2
    unfold Tok.ends at this
    rw [hk] at this; simp at this
  cases o with
  | nil => exact ho.elim
  | cons x o =>
    cases x <;> first | exact ho.elim | skip
    all_goals
      simp only [sstep]
      repeat' split
      all_goals first | rfl | exact (hno _ _ _ rfl rfl rfl).elim

/-- An expression up to a terminator. -/
theorem lift_ex {o : List OSym} (ho : ExTop o) {i : List Sym} {ts : List Tok} {e : Ex} {ts' : List Tok}
    (h : St i ts [.ex e] ts') : SSt o i ts o [.ex e] ts' := by
  generalize hf : [Sym.ex e] = f at h
  induction h with
  | refl => exact .refl
  | @head s t s1 t1 s2 t2 h hr ih =>
    subst hf
    by_cases hx : ∀ e t' ts', s = [.ex e] → t = t' :: ts' → t'.ends = false
    · exact .head (by rw [sstep_inner ho hx, innerStep, h]; rfl) (ih rfl)
    · exfalso
      simp only [not_forall] at hx
      obtain ⟨e', t', ts', rfl, rfl, ht⟩ := hx
      have ht : t'.ends = true := by simpa using ht
      simp only [step, stepEx, shift, Option.some.injEq, Prod.mk.injEq] at h
      obtain ⟨Y, hY⟩ := St.term hr ht (e0 := e') ⟨[], by rw [← h.1]; rfl⟩
      have := congrArg List.length hY
      simp at this

theorem endsLeft_cases {t : Tok} (h : t.endsLeft = true) :
    t = .p .equals ∨ t = .p .le ∨ t = .p .comma ∨ t = .p .rbrace := by
  unfold Tok.endsLeft at h
  split at h <;> simp at h ⊢

theorem step_left {i i' : List Sym} {l : Ex} (hl : leftOf i = some l) {t : Tok} (ht : t.endsLeft = true)
    {ts ts' : List Tok} (h : step i (t :: ts) = some (i', ts')) :
    Bot i' ∨ (leftOf i' = none ∧ ∃ e, i' = [.ex e] ∧ ts' = t :: ts) := by
  have ht := endsLeft_cases ht
  unfold leftOf at hl
  split at hl
  · rcases ht with rfl | rfl | rfl | rfl <;> simp [step] at h <;> exact .inr ⟨by rw [← h.1]; rfl, _, h.1.symm, h.2.symm⟩
  · rcases ht with rfl | rfl | rfl | rfl <;> simp [step] at h <;> exact .inr ⟨by rw [← h.1]; rfl, _, h.1.symm, h.2.symm⟩
  · simp [step, stepEx, shift] at h
    exact .inl (.inl ⟨[], _, _, h.1.symm⟩)
  · simp at hl

/-- The next action is one of the expression parser. -/
def InLeft (i : List Sym) (ts : List Tok) : Prop := i ≠ [] ∨ ∃ n, ts.head? = some (.id n)

theorem sstep_lhs {o : List OSym} {i : List Sym} {ts : List Tok} (hin : InLeft i ts)
    (h : ∀ l t ts', leftOf i = some l → ts = t :: ts' → t.endsLeft = true → False) :
    sstep (.lhs :: o) i ts = innerStep (.lhs :: o) i ts := by
  simp only [sstep, stepLhs]
  split
  · rcases hin with hin | ⟨n, hn⟩
    · exact absurd rfl hin
    · cases ts with
      | nil => simp at hn
      | cons t ts => simp only [List.head?_cons, Option.some.injEq] at hn; subst hn; rfl
  · split
    · next l t ts' hl =>
      rw [if_neg]
      intro ht
      exact h l t ts' hl rfl ht
    · rfl

/-- A name or a select up to what follows it. -/
theorem lift_lhs {o : List OSym} {i : List Sym} {ts : List Tok} {f : List Sym} {l : Ex} {ts' : List Tok}
    (hl : leftOf f = some l) (hin : InLeft i ts) (h : St i ts f ts') : SSt (.lhs :: o) i ts (.lhs :: o) f ts' := by
  induction h with
  | refl => exact .refl
  | @head s t s1 t1 s2 t2 h hr ih =>
    by_cases hx : ∀ l t' ts', leftOf s = some l → t = t' :: ts' → t'.endsLeft = true → False
    · refine .head (by rw [sstep_lhs hin hx, innerStep, h]; rfl) (ih hl (.inl ?_))
      obtain ⟨x, P, rest, _, h2, _⟩ := step_shape h
      rw [h2]; simp
    · exfalso
      simp only [not_forall] at hx
      obtain ⟨l', t', ts', hs, rfl, ht, _⟩ := hx
      have hbot : ∀ {σ t}, St σ t s2 t2 → Bot σ → False := by
        intro σ t hst hb
        have := bot_left (hst.bot hb)
        rw [hl] at this; simp at this
      rcases step_left hs ht h with hb | ⟨hn, e, rfl, rfl⟩
      · exact hbot hr hb
      · cases hr with
        | refl => rw [hn] at hl; simp at hl
        | head h' hr' =>
          simp only [step, stepEx, shift, Option.some.injEq, Prod.mk.injEq] at h'
          exact hbot hr' (.inl ⟨[], .tok t', e, by rw [← h'.1]; rfl⟩)

/-- The name or select is taken when it is complete. -/
theorem lv_of_left {o : List OSym} {f : List Sym} {l : Ex} (hl : leftOf f = some l) {t : Tok} (ht : t.endsLeft = true)
    (ts : List Tok) : sstep (.lhs :: o) f (t :: ts) = some (.lv l :: o, [], t :: ts) := by
  have hne : f ≠ [] := by rintro rfl; simp [leftOf] at hl
  cases f with
  | nil => exact absurd rfl hne
  | cons x f => simp only [sstep, stepLhs, hl, ht, if_true]

/-- The token of an assignment. -/
def asgPun (nb : Bool) : Pun := if nb then .le else .equals

/-- No concatenation waits for the item. -/
def NoCat (o : List OSym) : Prop := ∀ es o', o ≠ .lcat es :: o'

theorem sstep_lv {o : List OSym} (ho : NoCat o) (l : Ex) (nb : Bool) (ts : List Tok) :
    sstep (.lv l :: o) [] (.p (asgPun nb) :: ts) = some (.asg nb l :: o, [], ts) := by
  simp only [sstep, stepLv]
  split
  · next es o' => exact absurd rfl (ho es o')
  · cases nb <;> rfl

end Pyv
