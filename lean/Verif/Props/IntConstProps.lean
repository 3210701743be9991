import Verif.IntConst
/-
  C04, C05: integer literals.
-/
namespace Pyv

/-! ### Specification: Verilog integer literals (vparser/lexer.py:181-190) -/

/-- The four number bases. -/
inductive Base where
  | bin | oct | dec | hex
  deriving DecidableEq, Repr

/-- The radix of a base. -/
def Base.radix : Base → Nat
  | .bin => 2 | .oct => 8 | .dec => 10 | .hex => 16

/-- The letters which mark a base. -/
def Base.letters : Base → List Char
  | .bin => ['b', 'B'] | .oct => ['o', 'O'] | .dec => ['d', 'D'] | .hex => ['h', 'H']

/-- Table of the hexadecimal digits. -/
def digitTable : List (Char × Nat) :=
  [('0', 0), ('1', 1), ('2', 2), ('3', 3), ('4', 4), ('5', 5), ('6', 6), ('7', 7), ('8', 8), ('9', 9),
   ('a', 10), ('b', 11), ('c', 12), ('d', 13), ('e', 14), ('f', 15),
   ('A', 10), ('B', 11), ('C', 12), ('D', 13), ('E', 14), ('F', 15)]

/-- `c` is a digit of value `d` in radix `r`. -/
def IsDigit (r : Nat) (c : Char) (d : Nat) : Prop := (c, d) ∈ digitTable ∧ d < r

/-- Positional notation: the number denoted by a list of digits, most significant first. -/
def positional (r : Nat) : List Nat → Nat
  | [] => 0
  | d :: ds => d * r ^ ds.length + positional r ds

/-- `Spells r text ds`: the text consists of digits of radix `r` with values `ds`, starting with a digit and
otherwise freely mixed with underscores. -/
inductive SpellsTail (r : Nat) : Str → List Nat → Prop where
  | nil : SpellsTail r [] []
  | us {s ds} : SpellsTail r s ds → SpellsTail r ('_' :: s) ds
  | digit {c d s ds} : IsDigit r c d → SpellsTail r s ds → SpellsTail r (c :: s) (d :: ds)

/-- As `SpellsTail`, starting with a digit. -/
def Spells (r : Nat) (text : Str) (ds : List Nat) : Prop :=
  ∃ c d s ds', text = c :: s ∧ ds = d :: ds' ∧ IsDigit r c d ∧ SpellsTail r s ds'

/-- A based literal: optional size, quote, optional sign marker, base letter, digits. -/
structure BasedLiteral where
  size : Str
  sign : Str
  base : Base
  letter : Char
  body : Str

/-- The text of a based literal. -/
def BasedLiteral.text (l : BasedLiteral) : Str := l.size ++ '\'' :: (l.sign ++ l.letter :: l.body)

/-- Well-formedness of the parts: `szs` are the digits of the size (empty: unsized), `ds` those of the body. -/
def BasedLiteral.Wf (l : BasedLiteral) (szs ds : List Nat) : Prop :=
  (l.size = [] ∧ szs = [] ∨ Spells 10 l.size szs) ∧ (∀ c ∈ l.size, c ≠ '_') ∧
  l.sign ∈ [[], ['s'], ['S']] ∧ l.letter ∈ l.base.letters ∧ Spells l.base.radix l.body ds

/-! ### Lemmas -/

theorem digitVal_of_isDigit {r c d} (h : IsDigit r c d) : digitVal c = some d := by
  obtain ⟨h, _⟩ := h
  simp only [digitTable, List.mem_cons, Prod.mk.injEq, List.not_mem_nil, or_false] at h
  rcases h with ⟨rfl, rfl⟩ | ⟨rfl, rfl⟩ | ⟨rfl, rfl⟩ | ⟨rfl, rfl⟩ | ⟨rfl, rfl⟩ | ⟨rfl, rfl⟩ | ⟨rfl, rfl⟩ |
    ⟨rfl, rfl⟩ | ⟨rfl, rfl⟩ | ⟨rfl, rfl⟩ | ⟨rfl, rfl⟩ | ⟨rfl, rfl⟩ | ⟨rfl, rfl⟩ | ⟨rfl, rfl⟩ | ⟨rfl, rfl⟩ |
    ⟨rfl, rfl⟩ | ⟨rfl, rfl⟩ | ⟨rfl, rfl⟩ | ⟨rfl, rfl⟩ | ⟨rfl, rfl⟩ | ⟨rfl, rfl⟩ | ⟨rfl, rfl⟩ <;> decide

theorem isDigit_cases {r c d} (h : IsDigit r c d) : c ∈ digitTable.map (·.1) ∧
    (r ≤ 10 → c ∈ ['0', '1', '2', '3', '4', '5', '6', '7', '8', '9']) := by
  obtain ⟨h, hr⟩ := h
  refine ⟨List.mem_map.mpr ⟨_, h, rfl⟩, fun h10 => ?_⟩
  simp only [digitTable, List.mem_cons, Prod.mk.injEq, List.not_mem_nil, or_false] at h
  rcases h with ⟨rfl, rfl⟩ | ⟨rfl, rfl⟩ | ⟨rfl, rfl⟩ | ⟨rfl, rfl⟩ | ⟨rfl, rfl⟩ | ⟨rfl, rfl⟩ | ⟨rfl, rfl⟩ |
    ⟨rfl, rfl⟩ | ⟨rfl, rfl⟩ | ⟨rfl, rfl⟩ | ⟨rfl, rfl⟩ | ⟨rfl, rfl⟩ | ⟨rfl, rfl⟩ | ⟨rfl, rfl⟩ | ⟨rfl, rfl⟩ |
    ⟨rfl, rfl⟩ | ⟨rfl, rfl⟩ | ⟨rfl, rfl⟩ | ⟨rfl, rfl⟩ | ⟨rfl, rfl⟩ | ⟨rfl, rfl⟩ | ⟨rfl, rfl⟩ <;>
    first
    | decide
    | omega

theorem isDigit_ne_us {r c d} (h : IsDigit r c d) : c ≠ '_' := by
  have := (isDigit_cases h).1
  rintro rfl
  revert this; decide

/-- Underscore-free spelling. -/
inductive Digits (r : Nat) : Str → List Nat → Prop where
  | nil : Digits r [] []
  | cons {c d s ds} : IsDigit r c d → Digits r s ds → Digits r (c :: s) (d :: ds)

theorem SpellsTail.strip {r s ds} (h : SpellsTail r s ds) : Digits r (stripUs s) ds := by
  induction h with
  | nil => exact .nil
  | us _ ih => simpa [stripUs] using ih
  | digit hd _ ih =>
    have := isDigit_ne_us hd
    have e : ∀ c' s', c' ≠ '_' → stripUs (c' :: s') = c' :: stripUs s' := by
      intro c' s' h; simp [stripUs, h]
    rw [e _ _ this]
    exact .cons hd ih

theorem Spells.strip {r s ds} (h : Spells r s ds) : Digits r (stripUs s) ds ∧ stripUs s ≠ [] := by
  obtain ⟨c, d, s', ds', rfl, rfl, hd, ht⟩ := h
  have h1 := isDigit_ne_us hd
  have : stripUs (c :: s') = c :: stripUs s' := by simp [stripUs, h1]
  rw [this]
  exact ⟨.cons hd ht.strip, by simp⟩

theorem digitsVal_digits {r s ds} (h : Digits r s ds) (acc : Nat) :
    digitsVal r acc s = .ok (acc * r ^ ds.length + positional r ds) := by
  induction h generalizing acc with
  | nil => simp [digitsVal, positional]
  | cons hd _ ih =>
    simp only [digitsVal, digitVal_of_isDigit hd, hd.2, if_true, ih, positional, List.length_cons]
    congr 1
    rw [Nat.pow_succ, Nat.add_mul, Nat.mul_assoc, Nat.mul_comm r]
    omega

theorem digits_mem {r s ds} (h : Digits r s ds) : ∀ c ∈ s, ∃ d, IsDigit r c d := by
  induction h with
  | nil => simp
  | cons hd _ ih =>
    intro c hc
    rcases List.mem_cons.mp hc with rfl | hc
    · exact ⟨_, hd⟩
    · exact ih c hc

theorem stripPrefix_digits {b : Base} {s ds} (h : Digits b.radix s ds) : stripPrefix b.radix s = s := by
  unfold stripPrefix
  split
  · rename_i c rest
    obtain ⟨d, hd⟩ := digits_mem h c (by simp)
    have h1 := (isDigit_cases hd).1
    have h2 := (isDigit_cases hd).2
    rw [if_neg]
    rintro ⟨_, ⟨hb, hc⟩ | ⟨hb, hc⟩ | ⟨hb, hc⟩⟩
    · rcases hc with rfl | rfl <;> revert h1 <;> decide
    · have := h2 (by omega)
      rcases hc with rfl | rfl <;> revert this <;> decide
    · have := h2 (by omega)
      rcases hc with rfl | rfl <;> revert this <;> decide
  · rfl

theorem pyIntOf_digits {b : Base} {s ds} (h : Digits b.radix s ds) (hne : s ≠ []) :
    pyIntOf b.radix s = .ok (positional b.radix ds : Int) := by
  have hstrip := stripPrefix_digits h
  have hd := digitsVal_digits h 0
  have hhead : ∀ c t, s = c :: t → c ≠ '-' ∧ c ≠ '+' := by
    rintro c t rfl
    obtain ⟨d, hd⟩ := digits_mem h c (by simp)
    have := (isDigit_cases hd).1
    constructor <;> (rintro rfl; revert this; decide)
  unfold pyIntOf
  split
  · exact absurd rfl (hhead _ _ rfl).1
  · exact absurd rfl (hhead _ _ rfl).2
  · simp [hne, hstrip, hd]
    rfl

theorem searchAfter_none {p : Char → Bool} {s : Str} (h : ∀ c ∈ s, p c = false) : searchAfter p s = none := by
  induction s with
  | nil => rfl
  | cons c cs ih =>
    simp [searchAfter, h c (by simp), ih (fun d hd => h d (by simp [hd]))]

theorem searchAfter_append {p : Char → Bool} {s : Str} {b : Char} {rest : Str} (h : ∀ c ∈ s, p c = false)
    (hb : p b = true) (hr : rest ≠ []) : searchAfter p (s ++ b :: rest) = some rest := by
  induction s with
  | nil => simp [searchAfter, hb, hr]
  | cons c cs ih =>
    simp [searchAfter, h c (by simp), ih (fun d hd => h d (by simp [hd]))]

theorem stripUs_append (a b : Str) : stripUs (a ++ b) = stripUs a ++ stripUs b := by simp [stripUs]

theorem stripUs_of_noUs {a : Str} (h : ∀ c ∈ a, c ≠ '_') : stripUs a = a := by
  simp only [stripUs, List.filter_eq_self]
  intro c hc; simpa using h c hc

/-- Decimal digit characters. -/
def decChars : List Char := ['0', '1', '2', '3', '4', '5', '6', '7', '8', '9']

theorem size_chars {l : BasedLiteral} {szs ds} (h : l.Wf szs ds) : ∀ c ∈ l.size, c ∈ decChars := by
  intro c hc
  rcases h.1 with ⟨h0, _⟩ | h0
  · rw [h0] at hc; simp at hc
  · have hs := h0.strip.1
    rw [stripUs_of_noUs h.2.1] at hs
    obtain ⟨d, hd⟩ := digits_mem hs c hc
    exact (isDigit_cases hd).2 (by omega)

theorem letters_not {b : Base} {c : Char} (h : c ∈ b.letters) :
    (isH c = decide (b = .hex)) ∧ (isD c = decide (b = .dec)) ∧ (isO c = decide (b = .oct)) ∧
    (isB c = decide (b = .bin)) ∧ c ≠ '_' ∧ c ≠ '\'' := by
  cases b <;> simp [Base.letters] at h <;> rcases h with rfl | rfl <;> decide

theorem strip_text {l : BasedLiteral} {szs ds} (h : l.Wf szs ds) :
    stripUs l.text = (l.size ++ '\'' :: l.sign) ++ l.letter :: stripUs l.body := by
  unfold BasedLiteral.text
  rw [stripUs_append, stripUs_of_noUs h.2.1]
  have hl := (letters_not h.2.2.2.1).2.2.2.2.1
  have hs := h.2.2.1
  simp only [List.mem_cons, List.not_mem_nil, or_false] at hs
  rcases hs with h0 | h0 | h0 <;> simp [h0, stripUs, hl]

theorem pre_chars {l : BasedLiteral} {szs ds} (h : l.Wf szs ds) :
    ∀ c ∈ l.size ++ '\'' :: l.sign, c ∈ '\'' :: 's' :: 'S' :: decChars := by
  intro c hc
  simp only [List.mem_append, List.mem_cons] at hc
  rcases hc with hc | rfl | hc
  · have := size_chars h c hc; simp [this]
  · simp
  · have hs := h.2.2.1
    simp only [List.mem_cons, List.not_mem_nil, or_false] at hs
    rcases hs with h0 | h0 | h0 <;> simp [h0] at hc <;> simp [hc]

theorem pre_not {c : Char} (h : c ∈ '\'' :: 's' :: 'S' :: decChars) :
    isH c = false ∧ isD c = false ∧ isO c = false ∧ isB c = false := by
  simp only [decChars, List.mem_cons, List.not_mem_nil, or_false] at h
  rcases h with rfl | rfl | rfl | rfl | rfl | rfl | rfl | rfl | rfl | rfl | rfl | rfl | rfl <;> decide

theorem dig10_not {r : Nat} (hr : r ≤ 10) {c : Char} {d : Nat} (h : IsDigit r c d) :
    isH c = false ∧ isD c = false ∧ isO c = false ∧ isB c = false := by
  have := (isDigit_cases h).2 hr
  simp only [List.mem_cons, List.not_mem_nil, or_false] at this
  rcases this with rfl | rfl | rfl | rfl | rfl | rfl | rfl | rfl | rfl | rfl <;> decide

/-! ### C04 -/

/-- **C04** (based literals) Evaluating a literal in any base, with or without size and sign marker, with
underscores anywhere after the first digit, gives the number its digits denote. -/
theorem C04_based_literal (l : BasedLiteral) (szs ds : List Nat) (h : l.Wf szs ds) :
    intConstEval l.text = .ok (positional l.base.radix ds : Int) := by
  have hbody := h.2.2.2.2.strip
  have hL := letters_not h.2.2.2.1
  have hint := pyIntOf_digits hbody.1 hbody.2
  have hpre := pre_chars h
  have hall : l.base.radix ≤ 10 → ∀ c ∈ stripUs l.body,
      isH c = false ∧ isD c = false ∧ isO c = false ∧ isB c = false := by
    intro hr c hc
    obtain ⟨d, hd⟩ := digits_mem hbody.1 c hc
    exact dig10_not hr hd
  unfold intConstEval
  rw [strip_text h]
  have none_of : ∀ p : Char → Bool, (∀ c ∈ l.size ++ '\'' :: l.sign, p c = false) → p l.letter = false →
      (∀ c ∈ stripUs l.body, p c = false) →
      searchAfter p ((l.size ++ '\'' :: l.sign) ++ l.letter :: stripUs l.body) = none := by
    intro p h1 h2 h3
    apply searchAfter_none
    intro c hc
    rcases List.mem_append.mp hc with hc | hc
    · exact h1 c hc
    · rcases List.mem_cons.mp hc with rfl | hc
      · exact h2
      · exact h3 c hc
  obtain ⟨size, sign, base, letter, body⟩ := l
  cases base with
  | hex =>
    simp only [decide_true, decide_false] at hL
    simp only [searchAfter_append (p := isH) (fun c hc => (pre_not (hpre c hc)).1) hL.1 hbody.2]
    exact hint
  | dec =>
    have hall := hall (by simp [Base.radix])
    simp only [none_of isH (fun c hc => (pre_not (hpre c hc)).1) (by simpa using hL.1) (fun c hc => (hall c hc).1),
      searchAfter_append (p := isD) (fun c hc => (pre_not (hpre c hc)).2.1) hL.2.1 hbody.2]
    exact hint
  | oct =>
    have hall := hall (by simp [Base.radix])
    simp only [none_of isH (fun c hc => (pre_not (hpre c hc)).1) (by simpa using hL.1) (fun c hc => (hall c hc).1),
      none_of isD (fun c hc => (pre_not (hpre c hc)).2.1) (by simpa using hL.2.1) (fun c hc => (hall c hc).2.1),
      searchAfter_append (p := isO) (fun c hc => (pre_not (hpre c hc)).2.2.1) hL.2.2.1 hbody.2]
    exact hint
  | bin =>
    have hall := hall (by simp [Base.radix])
    simp only [none_of isH (fun c hc => (pre_not (hpre c hc)).1) (by simpa using hL.1) (fun c hc => (hall c hc).1),
      none_of isD (fun c hc => (pre_not (hpre c hc)).2.1) (by simpa using hL.2.1) (fun c hc => (hall c hc).2.1),
      none_of isO (fun c hc => (pre_not (hpre c hc)).2.2.1) (by simpa using hL.2.2.1)
        (fun c hc => (hall c hc).2.2.1),
      searchAfter_append (p := isB) (fun c hc => (pre_not (hpre c hc)).2.2.2) hL.2.2.2.1 hbody.2]
    exact hint

/-- **C04** (plain decimal) A literal without base evaluates to the decimal number it spells. -/
theorem C04_plain_decimal (text : Str) (ds : List Nat) (h : Spells 10 text ds) :
    intConstEval text = .ok (positional 10 ds : Int) := by
  have hb := h.strip
  have hall : ∀ c ∈ stripUs text, isH c = false ∧ isD c = false ∧ isO c = false ∧ isB c = false := by
    intro c hc
    obtain ⟨d, hd⟩ := digits_mem hb.1 c hc
    exact dig10_not (by omega) hd
  unfold intConstEval
  simp only [searchAfter_none (fun c hc => (hall c hc).1), searchAfter_none (fun c hc => (hall c hc).2.1),
    searchAfter_none (fun c hc => (hall c hc).2.2.1), searchAfter_none (fun c hc => (hall c hc).2.2.2)]
  exact pyIntOf_digits (b := .dec) hb.1 hb.2

/-- A concrete literal meeting the hypotheses: 8'shF_a. -/
example : BasedLiteral.Wf ⟨['8'], ['s'], .hex, 'h', ['F', '_', 'a']⟩ [8] [15, 10] :=
  ⟨.inr ⟨'8', 8, [], [], rfl, rfl, ⟨by decide, by decide⟩, .nil⟩, by simp, by simp, by simp [Base.letters],
   'F', 15, ['_', 'a'], [10], rfl, rfl, ⟨by decide, by decide⟩,
   .us (.digit ⟨by decide, by decide⟩ .nil)⟩

example : intConstEval "8'shF_a".toList = .ok 250 := by decide

/-- **C04** (limit) The literal `4'b1?`, which the lexer accepts ('?' is a synonym of 'z'), makes `eval` raise
ValueError, and it is not recognised as undefined by `optimizeConstant`, which looks for x/z only. -/
theorem C04_question_mark_raises : intConstEval "4'b1?".toList = .error .value := by decide

/-! ### C05 -/

theorem searchSize_go_none {p : Char → Bool} {pre s : Str} (h : '\'' ∉ s) : searchSize.go p pre s = none := by
  induction s generalizing pre with
  | nil => rfl
  | cons c cs ih =>
    simp only [List.mem_cons, not_or] at h
    simp only [searchSize.go, ih h.2]
    split
    · exact absurd rfl h.1
    · rfl

theorem searchSize_go {p : Char → Bool} (pre a : Str) (b : Char) (rest : Str) (ha : '\'' ∉ a) (hr : '\'' ∉ b :: rest) :
    searchSize.go p pre (a ++ '\'' :: b :: rest) =
      if pre ++ a ≠ [] ∧ p b ∧ rest ≠ [] then some (pre ++ a) else none := by
  induction a generalizing pre with
  | nil =>
    simp only [List.nil_append, List.append_nil]
    unfold searchSize.go
    simp only [searchSize_go_none hr]
  | cons c cs ih =>
    simp only [List.mem_cons, not_or] at ha
    simp only [List.cons_append, searchSize.go, ih (pre ++ [c]) ha.2]
    have hc : c ≠ '\'' := fun h => ha.1 h.symm
    by_cases hcond : pre ++ [c] ++ cs ≠ [] ∧ p b ∧ rest ≠ []
    · have hcond' : pre ++ c :: cs ≠ [] ∧ p b ∧ rest ≠ [] := by simpa using hcond
      rw [if_pos hcond, if_pos hcond']; simp
    · have hcond' : ¬ (pre ++ c :: cs ≠ [] ∧ p b ∧ rest ≠ []) := by simpa using hcond
      rw [if_neg hcond, if_neg hcond']
      simp only
      split
      · exact absurd rfl hc
      · rfl

/-- The width declared by a literal: its size if given, otherwise 32. -/
def BasedLiteral.declaredWidth (szs : List Nat) : Nat := if szs = [] then 32 else positional 10 szs

theorem noQuote_of_digits {r s ds} (h : Digits r s ds) : '\'' ∉ s := by
  intro hc
  obtain ⟨d, hd⟩ := digits_mem h _ hc
  have := (isDigit_cases hd).1
  revert this; decide

/-- **C05 (partial)** The width of a literal without sign marker is its declared size, 32 if it has none.
Missing: literals with a sign marker, for which the code really returns 32 (`C05_signed_width_lost`). -/
theorem C05_literal_width_partial (l : BasedLiteral) (szs ds : List Nat) (h : l.Wf szs ds) (hs : l.sign = []) :
    intConstWidth l.text = .ok (BasedLiteral.declaredWidth szs : Int) := by
  have hbody := h.2.2.2.2.strip
  have hL := letters_not h.2.2.2.1
  have hsz : '\'' ∉ l.size := by
    intro hc
    have := size_chars h _ hc
    revert this; decide
  have hq : '\'' ∉ l.letter :: stripUs l.body := by
    simp only [List.mem_cons, not_or]
    exact ⟨fun e => hL.2.2.2.2.2 e.symm, noQuote_of_digits hbody.1⟩
  have hsearch : ∀ p : Char → Bool, searchSize p (stripUs l.text) =
      if l.size ≠ [] ∧ p l.letter then some l.size else none := by
    intro p
    rw [strip_text h, hs]
    unfold searchSize
    have := searchSize_go (p := p) [] l.size l.letter (stripUs l.body) hsz hq
    simp only [List.append_assoc, List.cons_append, List.nil_append] at *
    rw [this]
    simp [hbody.2]
  have hint : l.size ≠ [] → pyIntOf 10 l.size = .ok (BasedLiteral.declaredWidth szs : Int) := by
    intro hne
    rcases h.1 with ⟨h0, _⟩ | h0
    · exact absurd h0 hne
    · have := h0.strip
      rw [stripUs_of_noUs h.2.1] at this
      have hne2 : szs ≠ [] := by obtain ⟨c, d, s, ds', _, rfl, _⟩ := h0; simp
      have e := pyIntOf_digits (b := .dec) this.1 this.2
      simpa [BasedLiteral.declaredWidth, hne2, Base.radix] using e
  have hnil : l.size = [] → (BasedLiteral.declaredWidth szs : Int) = 32 := by
    intro h0
    rcases h.1 with ⟨_, h1⟩ | ⟨c, d, s, ds', h1, _⟩
    · simp [BasedLiteral.declaredWidth, h1]
    · rw [h0] at h1; simp at h1
  unfold intConstWidth
  simp only [hsearch, hL.1, hL.2.1, hL.2.2.1, hL.2.2.2.1]
  by_cases hne : l.size = []
  · simp [hne, hnil hne]
  · obtain ⟨size, sign, base, letter, body⟩ := l
    cases base <;> simp_all

/-- **C05** (plain decimal) A literal without size has width 32. -/
theorem C05_plain_width (text : Str) (ds : List Nat) (h : Spells 10 text ds) : intConstWidth text = .ok 32 := by
  have hq := noQuote_of_digits h.strip.1
  unfold intConstWidth searchSize
  simp [searchSize_go_none hq]

/-- **C05 is false of the code for signed literals**: the 4-bit literal 4'sd5 is given width 32. -/
theorem C05_signed_width_lost : ∃ (l : BasedLiteral) (szs ds : List Nat), l.Wf szs ds ∧
    BasedLiteral.declaredWidth szs = 4 ∧ intConstWidth l.text = .ok 32 :=
  ⟨⟨['4'], ['s'], .dec, 'd', ['5']⟩, [4], [5],
   ⟨.inr ⟨'4', 4, [], [], rfl, rfl, ⟨by decide, by decide⟩, .nil⟩, by simp, by simp, by simp [Base.letters],
    '5', 5, [], [], rfl, rfl, ⟨by decide, by decide⟩, .nil⟩, by decide, by decide⟩

/-- The general form: every sized literal with a sign marker is given width 32, whatever its size. -/
theorem C05_signed_width_always_32 (l : BasedLiteral) (szs ds : List Nat) (h : l.Wf szs ds) (hs : l.sign ≠ []) :
    intConstWidth l.text = .ok 32 := by
  have hbody := h.2.2.2.2.strip
  have hL := letters_not h.2.2.2.1
  have hsz : '\'' ∉ l.size := by
    intro hc
    have := size_chars h _ hc
    revert this; decide
  have hq : ∀ c, c = 's' ∨ c = 'S' → '\'' ∉ c :: l.letter :: stripUs l.body := by
    intro c hc
    simp only [List.mem_cons, not_or]
    exact ⟨by rcases hc with rfl | rfl <;> decide, fun e => hL.2.2.2.2.2 e.symm, noQuote_of_digits hbody.1⟩
  have hsg : l.sign = ['s'] ∨ l.sign = ['S'] := by
    have := h.2.2.1
    simp only [List.mem_cons, List.not_mem_nil, or_false] at this
    rcases this with h | h | h
    · exact absurd h hs
    · exact .inl h
    · exact .inr h
  have hsearch : ∀ p : Char → Bool, p 's' = false → p 'S' = false → searchSize p (stripUs l.text) = none := by
    intro p h1 h2
    rw [strip_text h]
    unfold searchSize
    rcases hsg with e | e <;> rw [e]
    · have := searchSize_go (p := p) [] l.size 's' (l.letter :: stripUs l.body) hsz (hq _ (.inl rfl))
      simp only [List.append_assoc, List.cons_append, List.nil_append] at *
      rw [this]; simp [h1]
    · have := searchSize_go (p := p) [] l.size 'S' (l.letter :: stripUs l.body) hsz (hq _ (.inr rfl))
      simp only [List.append_assoc, List.cons_append, List.nil_append] at *
      rw [this]; simp [h2]
  unfold intConstWidth
  simp [hsearch isH (by decide) (by decide), hsearch isD (by decide) (by decide), hsearch isO (by decide) (by decide),
    hsearch isB (by decide) (by decide)]

end Pyv
