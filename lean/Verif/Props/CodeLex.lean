import Verif.CodegenSpec
import Verif.ExprParser
import Verif.Props.LexPun
/-
  The code printed for an expression is cut into the expected tokens.
-/
namespace Pyv

/-- The token of an operator's mark. -/
def Op.pun : Op → Pun
  | .uminus => .minus | .ulnot => .lnot | .unot => .not | .uand => .and | .unand => .nand | .uor => .or | .unor => .nor
  | .uxor => .xor | .uxnor => .xnor | .power => .power | .times => .times | .divide => .divide | .mod => .mod
  | .plus => .plus | .minus => .minus | .sll => .lshift | .srl => .rshift | .sla => .lshifta | .sra => .rshifta
  | .lessThan => .lt | .greaterThan => .gt | .lessEq => .le | .greaterEq => .ge | .eq => .eq | .notEq => .ne
  | .eql => .eql | .notEql => .nel | .and => .and | .xor => .xor | .xnor => .xnor | .or => .or | .land => .land
  | .lor => .lor

theorem Op.pun_text (o : Op) : o.pun.text = o.mark := by cases o <;> rfl

/-- Is the code of the node put in parentheses by its own template? -/
def Ex.wrapped : Ex → Bool
  | .uplus _ => true | .un _ _ => true | .bin _ _ _ => true | .cond _ _ _ => true
  | _ => false

/-- Parentheses around tokens. -/
def Ex.wrapT (e : Ex) (ts : List Tok) : List Tok := if e.wrapped then .p .lparen :: (ts ++ [.p .rparen]) else ts

/-- Token lists separated by commas. -/
def commaT : List (List Tok) → List Tok
  | [] => []
  | [t] => t
  | s :: t :: r => s ++ .p .comma :: commaT (t :: r)

mutual
/-- The tokens of an expression printed without its outer parentheses. -/
def Ex.itoks : Ex → List Tok
  | .ident sc n => sc.flatMap (fun l => [.id l, .p .dot]) ++ [.id n]
  | .intc s => [.int s]
  | .fltc s => [.flt s]
  | .strc s => [.str ('"' :: s ++ ['"'])]
  | .uplus e => e.wrapT e.itoks
  | .un o e => .p o.pun :: e.wrapT e.itoks
  | .bin o a b => (if a.stripLeft o then a.itoks else a.wrapT a.itoks) ++
      .p o.pun :: (if b.stripRight o then b.itoks else b.wrapT b.itoks)
  | .cond c t f => .p .lparen :: (c.itoks ++ .p .rparen :: .p .cond :: (t.itoks ++ .p .colon :: f.itoks))
  | .psel v m l => v.itoks ++ .p .lbracket :: (m.itoks ++ .p .colon :: (l.itoks ++ [.p .rbracket]))
  | .ptr v p => v.itoks ++ .p .lbracket :: (p.itoks ++ [.p .rbracket])
  | .concat es => .p .lbrace :: (commaT (Ex.itokss es) ++ [.p .rbrace])
  | .rep t v => .p .lbrace :: (t.itoks ++ (v.itoks ++ [.p .rbrace]))
  | .call f es => .id f :: .p .lparen :: (commaT (Ex.wtokss es) ++ [.p .rparen])
  | .sys f es => .p .doller :: (if f = "signed".toList then .kw f else .id f) ::
      (if es.length > 0 then .p .lparen :: (commaT (Ex.wtokss es) ++ [.p .rparen]) else [])
/-- `Ex.itoks` on lists. -/
def Ex.itokss : List Ex → List (List Tok)
  | [] => []
  | e :: es => e.itoks :: Ex.itokss es
/-- The tokens with the outer parentheses, on lists. -/
def Ex.wtokss : List Ex → List (List Tok)
  | [] => []
  | e :: es => e.wrapT e.itoks :: Ex.wtokss es
end

/-- The tokens of `visit`. -/
def Ex.toks (e : Ex) : List Tok := e.wrapT e.itoks

/-- The text with its spaces, or without them. -/
def sq (sp : Bool) (s : Str) : Str := s.filter (fun c => sp || c != ' ')

theorem sq_append (sp : Bool) (a b : Str) : sq sp (a ++ b) = sq sp a ++ sq sp b := List.filter_append ..
theorem sq_cons (sp : Bool) (c : Char) (a : Str) (h : c ≠ ' ') : sq sp (c :: a) = c :: sq sp a := by
  simp [sq, h]
theorem sq_nil (sp : Bool) : sq sp [] = [] := rfl
theorem sq_true (s : Str) : sq true s = s := by simp [sq]
theorem sq_false (s : Str) : sq false s = delSpace s := by simp [sq, delSpace]
theorem sq_delSpace (sp : Bool) (s : Str) : sq sp (delSpace s) = sq false s := by
  rw [sq_false]; unfold sq delSpace; rw [List.filter_filter]
  congr 1; funext c; cases sp <;> simp

theorem sq_id (sp : Bool) (s : Str) (h : sp = false → ' ' ∉ s) : sq sp s = s := by
  cases sp with
  | true => exact sq_true s
  | false =>
    rw [sq, List.filter_eq_self]
    intro a ha
    simp only [Bool.false_or, bne_iff_ne]
    rintro rfl
    exact h rfl ha

/-- A space, or nothing. -/
def spc (sp : Bool) : Str := if sp then [' '] else []
theorem sq_space (sp : Bool) : sq sp [' '] = spc sp := by cases sp <;> rfl

theorem Lx.spc (sp : Bool) {r : Str} {ts : List Tok} (h : Lx r ts) : Lx (spc sp ++ r) ts := by
  cases sp with
  | true => exact Lx.sp (Or.inl rfl) h
  | false => exact h

theorem Lx.nl {r : Str} {ts : List Tok} (h : Lx r ts) : Lx ('\n' :: r) ts := by
  refine Lx.skip (by decide) ?_ h
  have hid : scanId ('\n' :: r) = none := by simp [scanId, isIdStart, isLet]
  simp only [lexTok, scanSkip_none '\n' r (by decide) (by decide), scanQuoted_none ('\n' :: r) (by simp),
    scanFloat_none' '\n' r (by decide) (by decide), scanInt_none '\n' r (by decide) (by decide), hid]

/-- The text `c` is lexed to `T` in front of every delimiter. -/
def LexP (c : Str) (T : List Tok) : Prop := ∀ r ts, Delim r → Lx r ts → Lx (c ++ r) (T ++ ts)

theorem Delim.cons {c : Char} (r : Str) (h : isIdChar c = false ∧ c ≠ '\'' ∧ c ≠ '.' ∧ c ≠ '?') : Delim (c :: r) := by
  intro d hd; simp at hd; subst hd; exact h

theorem Delim.spc_pun (sp : Bool) (o : Op) (r : Str) : Delim (spc sp ++ (o.pun.text ++ r)) := by
  cases sp with
  | true => exact Delim.cons _ (by decide)
  | false => cases o <;> exact Delim.cons _ (by decide)

/-- One character tokens that no character can extend. -/
theorem Lx.ch (k : Pun) (c : Char) (hk : k.text = [c]) (hc : k.cont = []) {r : Str} {ts : List Tok} (h : Lx r ts) :
    Lx (c :: r) (.p k :: ts) := by
  have := Lx.pun k (r := r) (ts := ts) (by rw [hc]; simp) h
  rw [hk] at this
  exact this

theorem delParen_wrap (x : Str) : delParen ('(' :: (x ++ [')'])) = x := by
  unfold delParen
  have h1 : ('(' :: (x ++ [')'])).getLast? = some ')' := by
    rw [← List.cons_append, List.getLast?_append]; rfl
  rw [if_pos ⟨rfl, h1⟩]
  simp

theorem delParen_id (s : Str) (h : s.head? ≠ some '(') : delParen s = s := by
  unfold delParen; rw [if_neg]; intro hh; exact h hh.1

/-- First characters of operands that are not put in parentheses. -/
def OpStart (c : Char) : Prop :=
  isIdStart c = true ∨ isDig c = true ∨ c ∈ ['\\', '\'', '.', '"', '{', '$', '(']

theorem escape_plain {n : Str} (h : n.head? ≠ some '\\') : escape n = n := by simp [escape, h]
theorem PlainId.head {n : Str} (h : PlainId n) : n.head? ≠ some '\\' := by
  obtain ⟨⟨c, t, rfl, hc, _⟩, _⟩ := h
  simp [(isIdStart_ne hc).2.2.2.2.2.2.2.2.2]
theorem EscId.escape {n : Str} (h : EscId n) : Pyv.escape n = n ++ [' '] := by
  obtain ⟨r, rfl, _⟩ := h; rfl

theorem IsName.code_head {n : Str} (h : IsName n) : ∃ c t, escape n = c :: t ∧ OpStart c ∧ c ≠ '(' ∧ c ≠ ' ' := by
  rcases h with h | h
  · rw [escape_plain h.head]
    obtain ⟨⟨c, t, rfl, hc, _⟩, _⟩ := h
    have := isIdStart_ne hc
    exact ⟨c, t, rfl, Or.inl hc, this.2.2.2.2.2.2.2.2.1, this.2.2.2.2.2.2.1⟩
  · rw [h.escape]
    obtain ⟨r, rfl, _⟩ := h
    exact ⟨_, _, rfl, Or.inr (Or.inr (by decide)), by decide, by decide⟩

theorem IntLit.code_head {s : Str} (h : IntLit s) : ∃ c t, s = c :: t ∧ OpStart c ∧ c ≠ '(' ∧ c ≠ ' ' := by
  cases h with
  | dec d ds hd _ => exact ⟨d, ds, rfl, Or.inr (Or.inl hd), (isDig_ne hd).2.2.2.2.2.2.2.2.2.1, (isDig_ne hd).2.2.2.2.2.2.2.1⟩
  | based size sg b f ds hsz =>
    cases size with
    | nil => exact ⟨_, _, rfl, Or.inr (Or.inr (by decide)), by decide, by decide⟩
    | cons a t =>
      have ha := hsz a (by simp)
      exact ⟨a, _, rfl, Or.inr (Or.inl ha), (isDig_ne ha).2.2.2.2.2.2.2.2.2.1, (isDig_ne ha).2.2.2.2.2.2.2.1⟩

theorem FloatLit.code_head {s : Str} (h : FloatLit s) : ∃ c t, s = c :: t ∧ OpStart c ∧ c ≠ '(' ∧ c ≠ ' ' := by
  obtain ⟨c, t, he, hc⟩ := h.head []
  rw [List.append_nil] at he
  refine ⟨c, t, he, ?_⟩
  rcases hc with hc | rfl
  · exact ⟨Or.inr (Or.inl hc), (isDig_ne hc).2.2.2.2.2.2.2.2.2.1, (isDig_ne hc).2.2.2.2.2.2.2.1⟩
  · exact ⟨Or.inr (Or.inr (by decide)), by decide, by decide⟩

theorem scope_code_head (sc : List Str) (n : Str) (h : ∀ l ∈ n :: sc, IsName l) :
    ∃ c t, sc.flatMap (fun l => escape l ++ ['.']) ++ escape n = c :: t ∧ OpStart c ∧ c ≠ '(' ∧ c ≠ ' ' := by
  cases sc with
  | nil => simpa using (h n (by simp)).code_head
  | cons l sc =>
    obtain ⟨c, t, he, hc⟩ := (h l (by simp)).code_head
    exact ⟨c, t ++ ['.'] ++ (sc.flatMap (fun l => escape l ++ ['.']) ++ escape n), by simp [he], hc⟩

theorem base_head (e : Ex) (h : e.isBase = true) (hw : e.WF) :
    ∃ c t, e.code = c :: t ∧ OpStart c ∧ c ≠ '(' ∧ c ≠ ' ' := by
  induction e using Ex.ind with
  | ident sc n => simp only [Ex.WF] at hw; simp only [Ex.code]; exact scope_code_head sc n hw
  | ptr v p ihv _ =>
    simp only [Ex.WF] at hw
    obtain ⟨c, t, he, hc⟩ := ihv hw.1 hw.2.1
    exact ⟨c, _, by simp only [Ex.code, he, List.cons_append]; rfl, hc⟩
  | _ => simp [Ex.isBase] at h

/-- An expression without parentheses of its own begins with a letter, a digit, ... but not with `(`. -/
theorem code_head (e : Ex) (hw : e.WF) (h : e.wrapped = false) :
    ∃ c t, e.code = c :: t ∧ OpStart c ∧ c ≠ '(' ∧ c ≠ ' ' := by
  cases e with
  | ident sc n => exact base_head _ rfl hw
  | intc s => simp only [Ex.WF] at hw; simp only [Ex.code]; exact hw.code_head
  | fltc s => simp only [Ex.WF] at hw; simp only [Ex.code]; exact hw.code_head
  | strc s => exact ⟨'"', _, by simp only [Ex.code, List.cons_append]; rfl, Or.inr (Or.inr (by decide)), by decide, by decide⟩
  | uplus e => simp [Ex.wrapped] at h
  | un o e => simp [Ex.wrapped] at h
  | bin o a b => simp [Ex.wrapped] at h
  | cond c t f => simp [Ex.wrapped] at h
  | psel v m l =>
    simp only [Ex.WF] at hw
    obtain ⟨c, t, he, hc⟩ := base_head v hw.1 hw.2.1
    exact ⟨c, _, by simp only [Ex.code, he, List.cons_append]; rfl, hc⟩
  | ptr v p => exact base_head _ (by simp only [Ex.WF] at hw; simpa [Ex.isBase] using hw.1) hw
  | concat es => exact ⟨'{', _, by simp only [Ex.code]; rfl, Or.inr (Or.inr (by decide)), by decide, by decide⟩
  | rep t v => exact ⟨'{', _, by simp only [Ex.code]; rfl, Or.inr (Or.inr (by decide)), by decide, by decide⟩
  | call f es =>
    simp only [Ex.WF] at hw
    obtain ⟨c, t, he, hc⟩ := hw.1.code_head
    exact ⟨c, _, by simp only [Ex.code, he, List.cons_append]; rfl, hc⟩
  | sys f es => exact ⟨'$', _, by simp only [Ex.code, List.cons_append]; rfl, Or.inr (Or.inr (by decide)), by decide, by decide⟩

/-- The code of a node with parentheses of its own is the stripped code between parentheses; otherwise stripping does
nothing. -/
theorem code_eq (e : Ex) (hw : e.WF) :
    e.code = if e.wrapped then '(' :: (e.rcode ++ [')']) else e.rcode := by
  cases hx : e.wrapped with
  | false =>
    obtain ⟨c, t, he, _, hc, _⟩ := code_head e hw hx
    simp only [Ex.rcode]
    rw [delParen_id]
    · simp
    · rw [he]; simp [hc]
  | true =>
    simp only [Ex.rcode, if_true]
    cases e with
    | uplus e => simp only [Ex.code, List.cons_append]; rw [delParen_wrap]
    | un o e => simp only [Ex.code, List.cons_append]; rw [delParen_wrap]
    | bin o a b =>
      simp only [Ex.WF] at hw
      simp only [Ex.code, if_neg hw.2.1, List.cons_append]
      rw [delParen_wrap]
    | cond c t f =>
      have e1 : (Ex.cond c t f).code = '(' :: (('(' :: (delParen c.code ++ (")? ".toList ++ (delParen t.code ++
        (" : ".toList ++ ((if f.isCond then ['\n'] else []) ++ delParen f.code)))))) ++ [')']) := by
        simp only [Ex.code]
        have : "((".toList = ['(', '('] := rfl
        rw [this]
        simp only [List.cons_append, List.nil_append, List.append_assoc]
      rw [e1, delParen_wrap]
    | _ => simp [Ex.wrapped] at hx


/-- The stripped code, node by node. -/
theorem rcode_un (o : Op) (e : Ex) : (Ex.un o e).rcode = o.mark ++ e.code := by
  simp only [Ex.rcode, Ex.code, List.cons_append]; rw [delParen_wrap]
theorem rcode_uplus (e : Ex) : (Ex.uplus e).rcode = e.code := by
  simp only [Ex.rcode, Ex.code, List.cons_append]; rw [delParen_wrap]
theorem rcode_bin (o : Op) (a b : Ex) (h : o ≠ .sla) : (Ex.bin o a b).rcode =
    (if a.stripLeft o then a.rcode else a.code) ++ ([' '] ++ (o.mark ++ ([' '] ++ (if b.stripRight o then b.rcode else b.code)))) := by
  simp only [Ex.rcode, Ex.code, if_neg h, List.cons_append]; rw [delParen_wrap]; simp only [List.append_assoc, List.cons_append, List.nil_append]
theorem rcode_cond (c t f : Ex) : (Ex.cond c t f).rcode =
    '(' :: (c.rcode ++ (")? ".toList ++ (t.rcode ++ (" : ".toList ++ ((if f.isCond then ['\n'] else []) ++ f.rcode))))) := by
  have e1 : (Ex.cond c t f).code = '(' :: (('(' :: (delParen c.code ++ (")? ".toList ++ (delParen t.code ++
    (" : ".toList ++ ((if f.isCond then ['\n'] else []) ++ delParen f.code)))))) ++ [')']) := by
    simp only [Ex.code]
    have : "((".toList = ['(', '('] := rfl
    rw [this]
    simp only [List.cons_append, List.nil_append, List.append_assoc]
  unfold Ex.rcode
  rw [e1, delParen_wrap]
theorem rcode_unwrapped (e : Ex) (hw : e.WF) (h : e.wrapped = false) : e.rcode = e.code := by
  have := code_eq e hw; rw [h] at this; exact this.symm

/-- The first character of a stripped expression: that of its leading unary operator, if any. -/
theorem rcode_head (e : Ex) (hw : e.WF) :
    ∃ c t, e.rcode = c :: t ∧ c ≠ ' ' ∧ (e.leadUn = none → OpStart c) ∧
      (∀ u, e.leadUn = some u → u.unary = true ∧ u.mark.head? = some c) := by
  have hcode : ∀ e : Ex, e.WF → ∃ c t, e.code = c :: t ∧ OpStart c ∧ c ≠ ' ' := by
    intro e hw
    cases hx : e.wrapped with
    | true => exact ⟨'(', _, by rw [code_eq e hw, hx]; rfl, Or.inr (Or.inr (by decide)), by decide⟩
    | false => obtain ⟨c, t, h1, h2, _, h3⟩ := code_head e hw hx; exact ⟨c, t, h1, h2, h3⟩
  have hunw : ∀ e : Ex, e.WF → e.wrapped = false → e.leadUn = none → ∃ c t, e.rcode = c :: t ∧ c ≠ ' ' ∧ (e.leadUn = none → OpStart c) ∧
      (∀ u, e.leadUn = some u → u.unary = true ∧ u.mark.head? = some c) := by
    intro e hw hx hl
    obtain ⟨c, t, h1, h2, h3⟩ := hcode e hw
    rw [rcode_unwrapped e hw hx]
    exact ⟨c, t, h1, h3, fun _ => h2, fun u hu => by rw [hl] at hu; simp at hu⟩
  induction e using Ex.ind with
  | uplus e _ =>
    simp only [Ex.WF] at hw
    obtain ⟨c, t, h1, h2, h3⟩ := hcode e hw
    rw [rcode_uplus]
    exact ⟨c, t, h1, h3, fun _ => h2, fun u hu => by simp [Ex.leadUn] at hu⟩
  | un o e _ =>
    simp only [Ex.WF] at hw
    rw [rcode_un]
    obtain ⟨c, t, h1, h2⟩ : ∃ c t, o.mark = c :: t ∧ c ≠ ' ' := by
      cases o <;> exact ⟨_, _, rfl, by decide⟩
    refine ⟨c, t ++ e.code, by rw [h1]; rfl, h2, fun h => by simp [Ex.leadUn] at h, ?_⟩
    intro u hu
    simp only [Ex.leadUn, Option.some.injEq] at hu
    subst hu
    exact ⟨hw.1, by rw [h1]; rfl⟩
  | bin o a b iha _ =>
    simp only [Ex.WF] at hw
    rw [rcode_bin o a b hw.2.1]
    simp only [Ex.leadUn]
    cases hs : a.stripLeft o with
    | true =>
      simp only [if_true]
      obtain ⟨c, t, h1, h2⟩ := iha hw.2.2.1
      exact ⟨c, _, by rw [h1]; rfl, h2⟩
    | false =>
      obtain ⟨c, t, h1, h2, h3⟩ := hcode a hw.2.2.1
      exact ⟨c, _, by simp only [h1]; rfl, h3, fun _ => h2, fun u hu => by simp at hu⟩
  | cond c t f _ _ _ =>
    rw [rcode_cond]
    exact ⟨'(', _, rfl, by decide, fun _ => Or.inr (Or.inr (by decide)), fun u hu => by simp [Ex.leadUn] at hu⟩
  | _ => exact hunw _ hw rfl rfl

theorem code_head' (e : Ex) (hw : e.WF) : ∃ c t, e.code = c :: t ∧ OpStart c ∧ c ≠ ' ' := by
  cases hx : e.wrapped with
  | true => exact ⟨'(', _, by rw [code_eq e hw, hx]; rfl, Or.inr (Or.inr (by decide)), by decide⟩
  | false => obtain ⟨c, t, h1, h2, _, h3⟩ := code_head e hw hx; exact ⟨c, t, h1, h2, h3⟩

/-- No operator is extended by the first character of an operand. -/
theorem OpStart.cont {c : Char} (h : OpStart c) (o : Op) : c ∉ o.pun.cont := by
  have hall : ∀ x ∈ o.pun.cont, x ∈ ['&', '|', '^', '=', '<', '>', ':', '*', '/'] := by
    cases o <;> decide
  intro hm
  have h2 := hall c hm
  simp only [List.mem_cons, List.not_mem_nil, or_false] at h2
  rcases h2 with rfl | rfl | rfl | rfl | rfl | rfl | rfl | rfl | rfl <;> revert h <;> simp [OpStart] <;> decide

theorem mark_cont (o u : Op) (c : Char) (ho : o.unary = false) (hu : u.unary = true) (hc : u.mark.head? = some c)
    (h1 : ¬ (o = .and ∧ u = .uand)) (h2 : ¬ (o = .or ∧ u = .uor)) : c ∉ o.pun.cont := by
  cases o <;> first | (simp [Op.unary] at ho; done) | (
    cases u <;> first | (simp [Op.unary] at hu; done) | (
      simp only [Op.mark] at hc
      have hc' := Option.some.inj hc.symm
      first | (exact absurd ⟨rfl, rfl⟩ h1) | (exact absurd ⟨rfl, rfl⟩ h2) | (rw [hc']; decide)))

theorem PlainId.nospace {n : Str} (h : PlainId n) : ' ' ∉ n := by
  obtain ⟨⟨c, t, rfl, hc, ht⟩, _⟩ := h
  intro hm
  rcases List.mem_cons.mp hm with h | h
  · exact (isIdStart_ne hc).2.2.2.2.2.2.1 h.symm
  · have := ht _ h; revert this; decide

theorem IsName.plain {n : Str} (h : IsName n) (hn : n.head? ≠ some '\\') : PlainId n := by
  rcases h with h | ⟨r, rfl, _⟩
  · exact h
  · exact absurd rfl hn

theorem baseDigit_space (b : Char) : ¬ baseDigit b ' ' := by
  rintro (h | h | h | h) <;> (have := h.2; revert this; decide)

theorem IntLit.nospace {s : Str} (h : IntLit s) : ' ' ∉ s := by
  cases h with
  | dec d ds hd hds =>
    intro hm
    rcases List.mem_cons.mp hm with h | h
    · rw [← h] at hd; revert hd; decide
    · rcases hds _ h with h | h
      · revert h; decide
      · revert h; decide
  | based size sg b f ds hsz hsg hf hds hX =>
    intro hm
    simp only [List.mem_append, List.mem_cons] at hm
    rcases hm with hm | hm | hm | hm | hm | hm
    · have := hsz _ hm; revert this; decide
    · revert hm; decide
    · rcases hsg with rfl | rfl | rfl <;> revert hm <;> decide
    · subst hm; rcases baseDigit_base hf with h | h | h | h <;> revert h <;> decide
    · subst hm; exact baseDigit_space _ hf
    · rcases hds _ hm with h | h
      · exact baseDigit_space _ h
      · revert h; decide

theorem ExpPart.nospace {x : Str} (h : ExpPart x) : ' ' ∉ x := by
  obtain ⟨e, sg, ds, rfl, he, hsg, _, hds⟩ := h
  intro hm
  simp only [List.mem_append, List.mem_cons] at hm
  rcases hm with hm | hm | hm
  · subst hm; revert he; decide
  · rcases hsg with rfl | rfl | rfl <;> revert hm <;> decide
  · have := hds _ hm; revert this; decide

theorem FloatLit.nospace {s : Str} (h : FloatLit s) : ' ' ∉ s := by
  cases h with
  | frac d f x hd hf _ hx =>
    intro hm
    simp only [List.mem_append, List.mem_cons] at hm
    rcases hm with hm | hm | hm | hm
    · have := hd _ hm; revert this; decide
    · revert hm; decide
    · have := hf _ hm; revert this; decide
    · rcases hx with rfl | hx
      · simp at hm
      · exact hx.nospace hm
  | expo d x hd _ hx =>
    intro hm
    simp only [List.mem_append] at hm
    rcases hm with hm | hm
    · have := hd _ hm; revert this; decide
    · exact hx.nospace hm


theorem IsName.lexP {n : Str} (h : IsName n) (sp : Bool) (ht : sp = false → n.head? ≠ some '\\') {r : Str} {ts : List Tok}
    (hr : ∀ c, r.head? = some c → isIdChar c = false) (hl : Lx r ts) : Lx (sq sp (escape n) ++ r) (.id n :: ts) := by
  have plain : PlainId n → Lx (sq sp (escape n) ++ r) (.id n :: ts) := by
    intro hp
    rw [escape_plain hp.head, sq_id sp n (fun _ => hp.nospace)]
    have hs := hp.scan r hr
    obtain ⟨⟨c, t, rfl, hc, _⟩, _⟩ := hp
    have := isIdStart_ne hc
    rw [List.cons_append] at hs ⊢
    exact Lx.tok (by rintro (h | h); exact this.2.2.2.2.2.2.1 h; exact this.2.2.2.2.2.2.2.1 h) hs hl
  rcases h with h | h
  · exact plain h
  · cases sp with
    | false =>
      obtain ⟨t, rfl, _⟩ := h
      exact absurd rfl (ht rfl)
    | true =>
      rw [h.escape, sq_true]
      have hs := h.scan r
      have e : n ++ [' '] ++ r = n ++ ' ' :: r := by simp
      rw [e]
      obtain ⟨t, rfl, _⟩ := h
      rw [List.cons_append] at hs ⊢
      exact Lx.tok (by decide) hs (Lx.sp (Or.inl rfl) hl)

theorem Delim.id {r : Str} (h : Delim r) : ∀ c, r.head? = some c → isIdChar c = false := fun c hc => (h c hc).1

theorem IsName.start {n : Str} (h : IsName n) (sp : Bool) (r : Str) :
    ∀ c, (sq sp (escape n) ++ r).head? = some c → c ∉ Pun.cont .dot := by
  intro c hc
  have key : isIdStart c = true ∨ c = '\\' := by
    rcases h with h | h
    · rw [escape_plain h.head] at hc
      rw [sq_id sp n (fun _ => h.nospace)] at hc
      obtain ⟨⟨d, t, rfl, hd, _⟩, _⟩ := h
      simp at hc; subst hc; exact Or.inl hd
    · rw [h.escape] at hc
      obtain ⟨t, rfl, _⟩ := h
      rw [List.cons_append, sq_cons _ _ _ (by decide)] at hc
      simp at hc; exact Or.inr hc.symm
  intro hm
  have h2 : ∀ x ∈ Pun.cont .dot, isIdStart x = false ∧ x ≠ '\\' := by decide
  rcases key with h | h
  · rw [(h2 c hm).1] at h; simp at h
  · exact (h2 c hm).2 h

theorem scope_lexP (sc : List Str) (n : Str) (sp : Bool) (h : ∀ l ∈ n :: sc, IsName l)
    (ht : sp = false → ∀ l ∈ n :: sc, l.head? ≠ some '\\') {r : Str} {ts : List Tok} (hr : Delim r) (hl : Lx r ts) :
    Lx (sq sp (sc.flatMap (fun l => escape l ++ ['.']) ++ escape n) ++ r)
      (sc.flatMap (fun l => [.id l, .p .dot]) ++ [.id n] ++ ts) ∧
    ∀ c, (sq sp (sc.flatMap (fun l => escape l ++ ['.']) ++ escape n) ++ r).head? = some c → c ∉ Pun.cont .dot := by
  induction sc with
  | nil =>
    simp only [List.flatMap_nil, List.nil_append, List.cons_append]
    exact ⟨(h n (by simp)).lexP sp (fun hsp => ht hsp n (by simp)) hr.id hl, (h n (by simp)).start sp r⟩
  | cons l sc ih =>
    have ih' := ih (fun x hx => h x (by simp at hx ⊢; tauto)) (fun hsp x hx => ht hsp x (by simp at hx ⊢; tauto))
    have e : sq sp ((l :: sc).flatMap (fun l => escape l ++ ['.']) ++ escape n) ++ r =
        sq sp (escape l) ++ ('.' :: (sq sp (sc.flatMap (fun l => escape l ++ ['.']) ++ escape n) ++ r)) := by
      have ed : sq sp ['.'] = ['.'] := by cases sp <;> rfl
      simp only [List.flatMap_cons, sq_append, ed]; simp only [List.append_assoc, List.cons_append, List.nil_append]
    rw [e]
    refine ⟨?_, (h l (by simp)).start sp _⟩
    have hdot := Lx.pun .dot ih'.2 ih'.1
    have := (h l (by simp)).lexP sp (fun hsp => ht hsp l (by simp)) (by
      intro c hc
      have hc' : '.' = c := by simpa [Pun.text] using hc
      subst hc'; decide) hdot
    simpa [Pun.text] using this

/-- Items separated by commas. -/
theorem comma_lexP (sp : Bool) : ∀ (cs : List Str) (Ts : List (List Tok)),
    List.Forall₂ (fun c T => LexP (sq sp c) T) cs Ts → LexP (sq sp (commaSep cs)) (commaT Ts) := by
  intro cs
  induction cs with
  | nil => intro Ts h; cases h; intro r ts _ hl; exact hl
  | cons c cs ih =>
    intro Ts h
    cases h with
    | cons h1 h2 =>
      cases h2 with
      | nil => exact h1
      | @cons d T cs' Ts' h3 h4 =>
        have ih' := ih _ (List.Forall₂.cons h3 h4)
        intro r ts hr hl
        have ec : sq sp ", ".toList = ',' :: spc sp := by cases sp <;> rfl
        simp only [commaSep, commaT, sq_append, ec, List.append_assoc, List.cons_append]
        exact h1 _ _ (Delim.cons _ (by decide)) (Lx.ch .comma ',' rfl rfl (Lx.spc sp (ih' r ts hr hl)))

theorem codes_eq_map (es : List Ex) : Ex.codes es = es.map Ex.code := by
  induction es with
  | nil => rfl
  | cons e es ih => simp [Ex.codes, ih]
theorem itokss_eq_map (es : List Ex) : Ex.itokss es = es.map Ex.itoks := by
  induction es with
  | nil => rfl
  | cons e es ih => simp [Ex.itokss, ih]
theorem wtokss_eq_map (es : List Ex) : Ex.wtokss es = es.map Ex.toks := by
  induction es with
  | nil => rfl
  | cons e es ih => simp [Ex.wtokss, Ex.toks, ih]
theorem WFs_iff (es : List Ex) : Ex.WFs es ↔ ∀ e ∈ es, e.WF := by
  induction es with
  | nil => simp [Ex.WFs]
  | cons e es ih => simp [Ex.WFs, ih]
theorem Tights_iff (es : List Ex) : Ex.Tights es ↔ ∀ e ∈ es, e.Tight := by
  induction es with
  | nil => simp [Ex.Tights]
  | cons e es ih => simp [Ex.Tights, ih]
theorem erases_eq_map (es : List Ex) : Ex.erases es = es.map Ex.erase := by
  induction es with
  | nil => rfl
  | cons e es ih => simp [Ex.erases, ih]

/-- From the stripped text to the text with parentheses. -/
theorem lexP_wrap (sp : Bool) (e : Ex) (hw : e.WF) (h : LexP (sq sp e.rcode) e.itoks) : LexP (sq sp e.code) e.toks := by
  intro r ts hr hl
  rw [code_eq e hw]
  unfold Ex.toks Ex.wrapT
  cases e.wrapped with
  | false => exact h r ts hr hl
  | true =>
    simp only [if_true]
    rw [sq_cons _ _ _ (by decide), sq_append]
    have e2 : sq sp [')'] = [')'] := by cases sp <;> rfl
    rw [e2]
    simp only [List.cons_append, List.append_assoc, List.nil_append]
    exact Lx.ch .lparen '(' rfl rfl (h _ _ (Delim.cons _ (by decide)) (Lx.ch .rparen ')' rfl rfl hl))

theorem sq_mark (sp : Bool) (o : Op) : sq sp o.mark = o.pun.text := by
  rw [o.pun_text]; apply sq_id; intro _; cases o <;> decide

/-- The tokens of the printed code. -/
theorem code_lexP (e : Ex) : ∀ (sp : Bool), e.WF → (sp = false → e.Tight) → LexP (sq sp e.rcode) e.itoks := by
  induction e using Ex.ind with
  | ident sc n =>
    intro sp hw ht
    rw [rcode_unwrapped _ hw rfl]
    simp only [Ex.WF] at hw
    simp only [Ex.Tight] at ht
    simp only [Ex.code, Ex.itoks]
    intro r ts hr hl
    exact (scope_lexP sc n sp hw ht hr hl).1
  | intc s =>
    intro sp hw ht
    rw [rcode_unwrapped _ hw rfl]
    simp only [Ex.WF] at hw
    simp only [Ex.code, Ex.itoks]
    intro r ts hr hl
    rw [sq_id sp s (fun _ => hw.nospace)]
    have hs := hw.scan r hr
    obtain ⟨c, t, he, hc, _, hsp⟩ := hw.code_head
    rw [he] at hs ⊢
    refine Lx.tok ?_ hs hl
    rintro (h | h)
    · exact hsp h
    · subst h; revert hc; simp [OpStart]; decide
  | fltc s =>
    intro sp hw ht
    rw [rcode_unwrapped _ hw rfl]
    simp only [Ex.WF] at hw
    simp only [Ex.code, Ex.itoks]
    intro r ts hr hl
    rw [sq_id sp s (fun _ => hw.nospace)]
    have hs := hw.scan r hr
    obtain ⟨c, t, he, hc, _, hsp⟩ := hw.code_head
    rw [he] at hs ⊢
    refine Lx.tok ?_ hs hl
    rintro (h | h)
    · exact hsp h
    · subst h; revert hc; simp [OpStart]; decide
  | strc s =>
    intro sp hw ht
    rw [rcode_unwrapped _ hw rfl]
    simp only [Ex.WF] at hw
    simp only [Ex.Tight] at ht
    simp only [Ex.code, Ex.itoks]
    intro r ts hr hl
    rw [sq_id sp _ (by intro hsp; have := ht hsp; simp [this])]
    exact Lx.tok (by decide) (lexTok_str hw r) hl
  | uplus e ih =>
    intro sp hw ht
    rw [rcode_uplus]
    simp only [Ex.WF] at hw
    simp only [Ex.Tight] at ht
    simp only [Ex.itoks]
    exact lexP_wrap sp e hw (ih sp hw ht)
  | un o e ih =>
    intro sp hw ht
    rw [rcode_un]
    simp only [Ex.WF] at hw
    simp only [Ex.Tight] at ht
    simp only [Ex.itoks]
    intro r ts hr hl
    rw [sq_append, sq_mark, List.append_assoc]
    refine Lx.pun o.pun ?_ (lexP_wrap sp e hw.2 (ih sp hw.2 ht) r ts hr hl)
    intro c hc
    obtain ⟨d, t, h1, h2, h3⟩ := code_head' e hw.2
    rw [h1, sq_cons _ _ _ h3] at hc
    simp at hc; subst hc
    exact h2.cont o
  | bin o a b iha ihb =>
    intro sp hw ht
    simp only [Ex.WF] at hw
    simp only [Ex.Tight] at ht
    rw [rcode_bin o a b hw.2.1]
    simp only [Ex.itoks]
    have ha : LexP (sq sp (if a.stripLeft o then a.rcode else a.code)) (if a.stripLeft o then a.itoks else a.wrapT a.itoks) := by
      split
      · exact iha sp hw.2.2.1 (fun h => (ht h).1)
      · exact lexP_wrap sp a hw.2.2.1 (iha sp hw.2.2.1 (fun h => (ht h).1))
    have hb : LexP (sq sp (if b.stripRight o then b.rcode else b.code)) (if b.stripRight o then b.itoks else b.wrapT b.itoks) := by
      split
      · exact ihb sp hw.2.2.2 (fun h => (ht h).2.1)
      · exact lexP_wrap sp b hw.2.2.2 (ihb sp hw.2.2.2 (fun h => (ht h).2.1))
    intro r ts hr hl
    rw [sq_append, sq_append, sq_append, sq_append, sq_mark, sq_space]
    simp only [List.append_assoc, List.cons_append]
    refine ha _ _ (Delim.spc_pun sp o _) (Lx.spc sp (Lx.pun o.pun ?_ (Lx.spc sp (hb r ts hr hl))))
    intro c hc
    cases sp with
    | true =>
      simp [spc] at hc; subst hc
      cases o <;> decide
    | false =>
      simp only [spc, List.nil_append, Bool.false_eq_true, if_false] at hc
      cases hs : b.stripRight o with
      | false =>
        rw [hs] at hc
        simp only [Bool.false_eq_true, if_false] at hc
        obtain ⟨d, t, h1, h2, h3⟩ := code_head' b hw.2.2.2
        rw [h1, sq_cons _ _ _ h3] at hc
        simp at hc; subst hc
        exact h2.cont o
      | true =>
        rw [hs] at hc
        simp only [if_true] at hc
        obtain ⟨d, t, h1, h2, h3, h4⟩ := rcode_head b hw.2.2.2
        rw [h1, sq_cons _ _ _ h2] at hc
        simp at hc; subst hc
        cases hlu : b.leadUn with
        | none => exact (h3 hlu).cont o
        | some u =>
          have hcl := (ht rfl).2.2 hs
          rw [hlu] at hcl
          exact mark_cont o u d hw.1 (h4 u hlu).1 (h4 u hlu).2 (by simpa using hcl.1) (by simpa using hcl.2)
  | cond c t f ihc iht ihf =>
    intro sp hw ht
    simp only [Ex.WF] at hw
    simp only [Ex.Tight] at ht
    rw [rcode_cond]
    simp only [Ex.itoks]
    intro r ts hr hl
    have e1 : sq sp ")? ".toList = ')' :: '?' :: spc sp := by cases sp <;> rfl
    have e2 : sq sp " : ".toList = spc sp ++ ':' :: spc sp := by cases sp <;> rfl
    have e3 : sq sp (if f.isCond then ['\n'] else []) = (if f.isCond then ['\n'] else []) := by
      cases f.isCond <;> cases sp <;> rfl
    rw [sq_cons _ _ _ (by decide)]
    simp only [sq_append, e1, e2, e3, List.append_assoc, List.cons_append]
    have hf := ihf sp hw.2.2 (fun h => (ht h).2.2) r ts hr hl
    have hf' : Lx ((if f.isCond then ['\n'] else []) ++ (sq sp f.rcode ++ r)) (f.itoks ++ ts) := by
      split
      · exact Lx.nl hf
      · exact hf
    have hcol := Lx.spc sp (Lx.ch .colon ':' rfl rfl (Lx.spc sp hf'))
    have hdel : Delim (spc sp ++ ':' :: (spc sp ++ ((if f.isCond then ['\n'] else []) ++ (sq sp f.rcode ++ r)))) := by
      cases sp <;> exact Delim.cons _ (by decide)
    have htt := iht sp hw.2.1 (fun h => (ht h).2.1) _ _ hdel hcol
    exact Lx.ch .lparen '(' rfl rfl (ihc sp hw.1 (fun h => (ht h).1) _ _ (Delim.cons _ (by decide))
      (Lx.ch .rparen ')' rfl rfl (Lx.ch .cond '?' rfl rfl (Lx.spc sp htt))))
  | psel v m l ihv ihm ihl =>
    intro sp hw ht
    rw [rcode_unwrapped _ hw rfl]
    simp only [Ex.WF] at hw
    simp only [Ex.Tight] at ht
    simp only [Ex.code, Ex.itoks]
    intro r ts hr hl
    have hv := ihv sp hw.2.1 (fun h => (ht h).1)
    rw [rcode_unwrapped v hw.2.1 (by cases v <;> first | rfl | simp [Ex.isBase] at hw)] at hv
    have hm := ihm false hw.2.2.1 (fun _ => hw.2.2.2.2.1)
    have hlx := ihl false hw.2.2.2.1 (fun _ => hw.2.2.2.2.2)
    have e1 : sq sp ['['] = ['['] := by cases sp <;> rfl
    have e2 : sq sp [']'] = [']'] := by cases sp <;> rfl
    have e3 : sq sp [':'] = [':'] := by cases sp <;> rfl
    simp only [sq_append, sq_delSpace, e1, e2, e3]; simp only [List.append_assoc, List.cons_append, List.nil_append]
    exact hv _ _ (Delim.cons _ (by decide)) (Lx.ch .lbracket '[' rfl rfl (hm _ _ (Delim.cons _ (by decide))
      (Lx.ch .colon ':' rfl rfl (hlx _ _ (Delim.cons _ (by decide)) (Lx.ch .rbracket ']' rfl rfl hl)))))
  | ptr v p ihv ihp =>
    intro sp hw ht
    rw [rcode_unwrapped _ hw rfl]
    simp only [Ex.WF] at hw
    simp only [Ex.Tight] at ht
    simp only [Ex.code, Ex.itoks]
    intro r ts hr hl
    have hv := ihv sp hw.2.1 (fun h => (ht h).1)
    rw [rcode_unwrapped v hw.2.1 (by cases v <;> first | rfl | simp [Ex.isBase] at hw)] at hv
    have hp := ihp sp hw.2.2 (fun h => (ht h).2)
    have e1 : sq sp ['['] = ['['] := by cases sp <;> rfl
    have e2 : sq sp [']'] = [']'] := by cases sp <;> rfl
    simp only [sq_append, e1, e2]; simp only [List.append_assoc, List.cons_append, List.nil_append]
    exact hv _ _ (Delim.cons _ (by decide)) (Lx.ch .lbracket '[' rfl rfl (hp _ _ (Delim.cons _ (by decide))
      (Lx.ch .rbracket ']' rfl rfl hl)))
  | concat es ih =>
    intro sp hw ht
    rw [rcode_unwrapped _ hw rfl]
    simp only [Ex.WF, WFs_iff] at hw
    simp only [Ex.Tight, Tights_iff] at ht
    simp only [Ex.code, Ex.itoks]
    intro r ts hr hl
    have e1 : sq sp "{ ".toList = '{' :: spc sp := by cases sp <;> rfl
    have e2 : sq sp " }".toList = spc sp ++ ['}'] := by cases sp <;> rfl
    simp only [sq_append, e1, e2]; simp only [List.append_assoc, List.cons_append, List.nil_append]
    have hc : LexP (sq sp (commaSep ((Ex.codes es).map delParen))) (commaT (Ex.itokss es)) := by
      apply comma_lexP
      rw [codes_eq_map, itokss_eq_map, List.map_map, List.forall₂_map_left_iff, List.forall₂_map_right_iff]
      exact List.forall₂_same.mpr (fun e he => ih e he sp (hw.2 e he) (fun h => ht h e he))
    have hdel : Delim (spc sp ++ '}' :: r) := by cases sp <;> exact Delim.cons _ (by decide)
    exact Lx.ch .lbrace '{' rfl rfl (Lx.spc sp (hc _ _ hdel (Lx.spc sp (Lx.ch .rbrace '}' rfl rfl hl))))
  | rep t v iht ihv =>
    intro sp hw ht
    rw [rcode_unwrapped _ hw rfl]
    simp only [Ex.WF] at hw
    simp only [Ex.Tight] at ht
    simp only [Ex.code, Ex.itoks]
    intro r ts hr hl
    have e1 : sq sp "{ ".toList = '{' :: spc sp := by cases sp <;> rfl
    have e2 : sq sp " }".toList = spc sp ++ ['}'] := by cases sp <;> rfl
    have hdel : Delim (spc sp ++ '}' :: r) := by cases sp <;> exact Delim.cons _ (by decide)
    have hv := ihv sp hw.2.2 (fun h => (ht h).2) _ _ hdel (Lx.spc sp (Lx.ch .rbrace '}' rfl rfl hl))
    have htt := iht sp hw.2.1 (fun h => (ht h).1)
    have hd2 : Delim (sq sp v.rcode ++ (spc sp ++ '}' :: r)) := by
      cases v with
      | concat es =>
        rw [rcode_unwrapped _ hw.2.2 rfl]
        have e3 : (Ex.concat es).code = '{' :: (' ' :: (commaSep ((Ex.codes es).map delParen) ++ " }".toList)) := by
          simp only [Ex.code]; rfl
        rw [e3, sq_cons _ _ _ (by decide)]
        exact Delim.cons _ (by decide)
      | _ => simp [Ex.isConcat] at hw
    simp only [sq_append, e1, e2]; simp only [List.append_assoc, List.cons_append, List.nil_append]
    exact Lx.ch .lbrace '{' rfl rfl (Lx.spc sp (htt _ _ hd2 hv))
  | call f es ih =>
    intro sp hw ht
    rw [rcode_unwrapped _ hw rfl]
    simp only [Ex.WF, WFs_iff] at hw
    simp only [Ex.Tight, Tights_iff] at ht
    simp only [Ex.code, Ex.itoks]
    intro r ts hr hl
    have e1 : sq sp ['('] = ['('] := by cases sp <;> rfl
    have e2 : sq sp [')'] = [')'] := by cases sp <;> rfl
    have hc : LexP (sq sp (commaSep (Ex.codes es))) (commaT (Ex.wtokss es)) := by
      apply comma_lexP
      rw [codes_eq_map, wtokss_eq_map, List.forall₂_map_left_iff, List.forall₂_map_right_iff]
      exact List.forall₂_same.mpr (fun e he => lexP_wrap sp e (hw.2 e he) (ih e he sp (hw.2 e he) (fun h => (ht h).2 e he)))
    simp only [sq_append, e1, e2]; simp only [List.append_assoc, List.cons_append, List.nil_append]
    refine hw.1.lexP sp (fun h => (ht h).1) (by intro c hc; simp at hc; subst hc; decide) ?_
    exact Lx.ch .lparen '(' rfl rfl (hc _ _ (Delim.cons _ (by decide)) (Lx.ch .rparen ')' rfl rfl hl))
  | sys f es ih =>
    intro sp hw ht
    rw [rcode_unwrapped _ hw rfl]
    simp only [Ex.WF, WFs_iff] at hw
    simp only [Ex.Tight, Tights_iff] at ht
    simp only [Ex.code, Ex.itoks]
    intro r ts hr hl
    have hc : LexP (sq sp (commaSep (Ex.codes es))) (commaT (Ex.wtokss es)) := by
      apply comma_lexP
      rw [codes_eq_map, wtokss_eq_map, List.forall₂_map_left_iff, List.forall₂_map_right_iff]
      exact List.forall₂_same.mpr (fun e he => lexP_wrap sp e (hw.2 e he) (ih e he sp (hw.2 e he) (fun h => (ht h).2 e he)))
    have hrest : ∃ R, sq sp (if es.length > 0 then ['('] else []) ++ (sq sp (commaSep (Ex.codes es)) ++
        (sq sp (if es.length > 0 then [')'] else []) ++ r)) = R ∧
        Lx R ((if es.length > 0 then .p .lparen :: (commaT (Ex.wtokss es) ++ [.p .rparen]) else []) ++ ts) ∧
        (∀ c, R.head? = some c → isIdChar c = false) := by
      refine ⟨_, rfl, ?_⟩
      cases es with
      | nil => exact ⟨hl, hr.id⟩
      | cons e es =>
        have e1 : sq sp (if (e :: es).length > 0 then ['('] else []) = ['('] := by cases sp <;> rfl
        have e2 : sq sp (if (e :: es).length > 0 then [')'] else []) = [')'] := by cases sp <;> rfl
        rw [e1, e2]
        simp only [List.length_cons, Nat.zero_lt_succ, gt_iff_lt, if_true, List.cons_append, List.nil_append, List.append_assoc]
        refine ⟨Lx.ch .lparen '(' rfl rfl (hc _ _ (Delim.cons _ (by decide)) (Lx.ch .rparen ')' rfl rfl hl)), ?_⟩
        intro c hc
        have : '(' = c := by simpa using hc
        subst this; decide
    obtain ⟨R, hR, hlx, hid⟩ := hrest
    simp only [List.cons_append, List.append_assoc]
    rw [sq_cons _ _ _ (by decide)]
    simp only [sq_append, List.append_assoc, List.cons_append]
    rw [hR]
    refine Lx.ch .doller '$' rfl rfl ?_
    by_cases hf : f = "signed".toList
    · subst hf
      rw [if_pos rfl]
      have e1 : sq sp (escape "signed".toList) = "signed".toList := by cases sp <;> rfl
      rw [e1]
      exact Lx.tok (by decide) (lexTok_signed R hid) hlx
    · rw [if_neg hf]
      have hn : IsName f := by
        rcases hw.1 with h | h
        · exact h
        · exact absurd h.1 hf
      exact hn.lexP sp (fun h => (ht h).1) hid hlx

end Pyv
