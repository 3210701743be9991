import Verif.Props.LexPosProps
/-
  C89: the lexer cuts a text into the longest tokens.
-/
namespace Pyv

/-! ## Specification -/

/-- `Munch text ps rest`: from the front of `text` the pieces `ps` are cut off, every time the longest piece that a
token, blank, newline, comment or directive of Verilog can be; `rest` is left. -/
inductive Munch : Str → List Piece → Str → Prop
  | stop (rest : Str) : Munch rest [] rest
  | cut (p : Piece) (ps : List Piece) (text rest : Str) :
      p.OK → (∀ q : Piece, q.OK → q.text <+: p.text ++ text → q.text.length ≤ p.text.length) →
      Munch text ps rest → Munch (p.text ++ text) (p :: ps) rest

/-- The tokens among the pieces. -/
def pieceToks : List Piece → List Tok
  | [] => []
  | .gap _ :: ps => pieceToks ps
  | .tok t :: ps => t :: pieceToks ps

/-! ## The scanners take the longest -/

theorem takeWhile_app {p : Char → Bool} {s : Str} (h : ∀ c ∈ s, p c = true) (r : Str) :
    (s ++ r).takeWhile p = s ++ r.takeWhile p ∧ (s ++ r).dropWhile p = r.dropWhile p := by
  induction s with
  | nil => simp
  | cons c s ih =>
    have := ih (fun x hx => h x (by simp [hx]))
    have hc := h c (by simp)
    simp [hc, this.1, this.2]

theorem dropWhile_len (p : Char → Bool) (r : Str) : (r.dropWhile p).length ≤ r.length := dropWhile_le p r

theorem scanExp_more {x : Str} (h : ExpPart x) (r : Str) :
    ∃ s', scanExp (x ++ r) = some (s', r.dropWhile isDig) := by
  obtain ⟨e, sg, ds, rfl, he, hsg, hne, hd⟩ := h
  have hds : ∀ c, (ds ++ r).head? = some c → isDig c = true := by
    cases ds with
    | nil => exact absurd rfl hne
    | cons d ds => intro c hc; simp at hc; subst hc; exact hd _ (by simp)
  have ho : optChar ['-', '+'] (sg ++ (ds ++ r)) = sg := by
    rcases hsg with rfl | rfl | rfl
    · cases ds with
      | nil => exact absurd rfl hne
      | cons d ds =>
        have h1 := hd d (by simp)
        have : d ≠ '-' ∧ d ≠ '+' := by constructor <;> (rintro rfl; revert h1; decide)
        simp [optChar, this]
    · simp [optChar]
    · simp [optChar]
  have h2 := takeWhile_app hd r
  refine ⟨e :: sg ++ (ds ++ r.takeWhile isDig), ?_⟩
  simp only [List.cons_append, List.append_assoc, scanExp, he, if_true, ho, List.drop_left, h2.1, h2.2]
  rw [if_neg (by simp [hne])]

theorem exp_head {x : Str} (h : ExpPart x) : ∃ e t, x = e :: t ∧ isDig e = false ∧ e ≠ '.' := by
  obtain ⟨e, sg, ds, rfl, he, _⟩ := h
  exact ⟨e, _, rfl, by rcases he with rfl | rfl <;> decide, by rcases he with rfl | rfl <;> decide⟩

theorem scanFloat_more {s : Str} (h : FloatLit s) (r : Str) :
    ∃ s' r', scanFloat (s ++ r) = some (s', r') ∧ r'.length ≤ r.length := by
  cases h with
  | frac d f x h1 h2 h3 h4 =>
    have hd := takeWhile_app h1 ('.' :: (f ++ (x ++ r)))
    have hdot : isDig '.' = false := by decide
    simp only [List.takeWhile_cons, List.dropWhile_cons, hdot, Bool.false_eq_true, if_false, List.append_nil] at hd
    have hf := takeWhile_app h2 (x ++ r)
    rcases h4 with rfl | h4
    · simp only [List.nil_append] at hf hd
      simp only [List.append_nil, List.append_assoc, List.cons_append, scanFloat, hd.1, hd.2, hf.1, hf.2]
      rw [if_neg (by rintro ⟨rfl, h⟩; exact h3 ⟨rfl, by simp at h; exact h.1⟩)]
      split
      · next x r' hx =>
        have := scanExp_lt _ _ _ hx
        have h5 := dropWhile_len isDig r
        exact ⟨_, _, rfl, by omega⟩
      · exact ⟨_, _, rfl, dropWhile_len _ _⟩
    · obtain ⟨s', hs'⟩ := scanExp_more h4 r
      obtain ⟨e, t, he, g1, _⟩ := exp_head h4
      have g2 : (x ++ r).takeWhile isDig = [] ∧ (x ++ r).dropWhile isDig = x ++ r := by subst he; simp [g1]
      simp only [List.append_assoc, List.cons_append, scanFloat, hd.1, hd.2, hf.1, hf.2, g2.1, g2.2, List.append_nil]
      rw [if_neg h3, hs']
      exact ⟨_, _, rfl, dropWhile_len _ _⟩
  | expo d x h1 h2 h4 =>
    have hd := takeWhile_app h1 (x ++ r)
    obtain ⟨s', hs'⟩ := scanExp_more h4 r
    obtain ⟨e, t, he, g1, g3⟩ := exp_head h4
    have g2 : (x ++ r).takeWhile isDig = [] ∧ (x ++ r).dropWhile isDig = x ++ r := by subst he; simp [g1]
    simp only [List.append_assoc, scanFloat, hd.1, hd.2, g2.1, g2.2, List.append_nil]
    split
    · next r0 heq => rw [he] at heq; simp only [List.cons_append, List.cons.injEq] at heq; exact absurd heq.1 g3
    · rw [if_neg h2, hs']
      exact ⟨_, _, rfl, dropWhile_len _ _⟩

/-- A real literal at the front of a text that begins with digits is longer than the digits. -/
theorem scanFloat_digits {cs s r : Str} (h : scanFloat cs = some (s, r)) : 
    r.length < (cs.dropWhile isDig).length ∧ ((cs.dropWhile isDig).head? = some '.' ∨ (cs.dropWhile isDig).head? = some 'e' ∨ (cs.dropWhile isDig).head? = some 'E') := by
  simp only [scanFloat] at h
  split at h
  · next r0 heq =>
    rw [heq]
    split at h
    · simp at h
    · have h5 := dropWhile_len isDig r0
      split at h
      · next hx =>
        simp only [Option.some.injEq, Prod.mk.injEq] at h
        have := scanExp_lt _ _ _ hx
        obtain ⟨_, rfl⟩ := h
        simp; omega
      · simp only [Option.some.injEq, Prod.mk.injEq] at h
        obtain ⟨_, rfl⟩ := h
        simp; omega
  · split at h
    · simp at h
    · simp only [Option.map_eq_some_iff, Prod.mk.injEq] at h
      obtain ⟨⟨a, b⟩, h1, _, rfl⟩ := h
      refine ⟨scanExp_lt _ _ _ h1, .inr ?_⟩
      revert h1
      generalize cs.dropWhile isDig = u
      cases u with
      | nil => simp [scanExp]
      | cons c u =>
        intro h1
        simp only [scanExp] at h1
        split at h1
        · next hc => rcases hc with rfl | rfl <;> simp
        · simp at h1

/-- A text of digits and underscores lies within the digits in front, if these are followed by another character. -/
theorem within_digits {ds r : Str} {x : Char} (h : ∀ c ∈ ds, isDig c = true ∨ c = '_') (hx : isDig x = false ∧ x ≠ '_')
    (hh : ((ds ++ r).dropWhile isDig).head? = some x) : ((ds ++ r).dropWhile isDig).length ≤ r.length := by
  induction ds with
  | nil => exact dropWhile_len _ _
  | cons d ds ih =>
    by_cases hd : isDig d = true
    · simp only [List.cons_append, List.dropWhile_cons, hd, if_true] at hh ⊢
      exact ih (fun c hc => h c (by simp [hc])) hh
    · simp only [List.cons_append, List.dropWhile_cons, hd, Bool.false_eq_true, if_false, List.head?_cons, Option.some.injEq] at hh
      subst hh
      rcases h d (by simp) with h1 | h1
      · exact absurd h1 hd
      · exact absurd h1 hx.2

/-- The rule for a base and a sign is the only one that matches. -/
theorem base_rule_only {b : Char} : ∀ ru ∈ intRules, ∀ ru' ∈ intRules, ru.1 = ru'.1 → b ∈ ru.2.1 → b ∈ ru'.2.1 → ru = ru' := by
  intro ru h1 ru' h2 h3 h4 h5
  have key : ∀ ru ∈ intRules, ∀ ru' ∈ intRules, ru.1 = ru'.1 → ∀ b ∈ ru.2.1, b ∈ ru'.2.1 → ru = ru' := by decide +kernel
  exact key ru h1 ru' h2 h3 b h4 h5

theorem base_rule_digits {b c : Char} : ∀ ru ∈ intRules, b ∈ ru.2.1 → baseDigit b c ∨ c = '_' → c ∈ ru.2.2.2 := by
  intro ru h1 h2 h3
  have key : ∀ ru ∈ intRules, ∀ b ∈ ru.2.1,
      (b ∈ ['b', 'B'] → ∀ c ∈ "01xXzZ?_".toList, c ∈ ru.2.2.2) ∧ (b ∈ ['o', 'O'] → ∀ c ∈ "01234567xXzZ?_".toList, c ∈ ru.2.2.2) ∧
      (b ∈ ['h', 'H'] → ∀ c ∈ "0123456789abcdefABCDEFxXzZ?_".toList, c ∈ ru.2.2.2) ∧
      (b ∈ ['d', 'D'] → ∀ c ∈ "0123456789xXzZ?_".toList, c ∈ ru.2.2.2) ∧ '_' ∈ ru.2.2.2 := by decide +kernel
  obtain ⟨k1, k2, k3, k4, k5⟩ := key ru h1 b h2
  rcases h3 with h3 | rfl
  · rcases h3 with ⟨g1, g2⟩ | ⟨g1, g2⟩ | ⟨g1, g2⟩ | ⟨g1, g2⟩
    · exact k1 g1 c (by revert g2; simp; grind)
    · exact k2 g1 c (by revert g2; simp; grind)
    · exact k3 g1 c (by revert g2; simp; grind)
    · exact k4 g1 c (by revert g2; simp; grind)
  · exact k5

theorem scanBased_more {size sg : Str} {b f : Char} {ds : Str} (h1 : ∀ c ∈ size, isDig c = true) (h2 : sg = [] ∨ sg = ['s'] ∨ sg = ['S'])
    (h3 : baseDigit b f) (h4 : ∀ c ∈ ds, baseDigit b c ∨ c = '_') (h5 : ¬ (sg ≠ [] ∧ b ∈ ['b', 'B'] ∧ f = 'X')) (r : Str) :
    ∃ s' r', scanBased ((size ++ '\'' :: (sg ++ b :: f :: ds)) ++ r) = some (s', r') ∧ r'.length ≤ r.length := by
  have hd := takeWhile_app h1 ('\'' :: (sg ++ b :: f :: (ds ++ r)))
  have hq : isDig '\'' = false := by decide
  simp only [List.takeWhile_cons, List.dropWhile_cons, hq, Bool.false_eq_true, if_false, List.append_nil] at hd
  obtain ⟨ru, hru, e1, e2, e3⟩ := base_rule h3 (decide (sg ≠ [])) (by simpa using h5)
  have hb : ∀ x, baseDigit b x → b ≠ 's' ∧ b ≠ 'S' := by
    intro x hx
    rcases hx with ⟨g, _⟩ | ⟨g, _⟩ | ⟨g, _⟩ | ⟨g, _⟩ <;> (simp at g; rcases g with rfl | rfl <;> decide)
  obtain ⟨b1, b2⟩ := hb f h3
  -- what a rule that matches yields
  have hyes : ∀ ru' ∈ intRules, ∀ s' r', scanBase ru' (sg ++ b :: f :: (ds ++ r)) = some (s', r') → r'.length ≤ r.length := by
    intro ru' hru' s' r' hs
    have hin : ∀ (u : Str), u = ds ++ r → b ∈ ru'.2.1 →
        (u.dropWhile (fun c => decide (c ∈ ru'.2.2.2))).length ≤ r.length := by
      rintro u rfl hbm
      rw [(takeWhile_app (s := ds) (p := fun c => decide (c ∈ ru'.2.2.2)) (by
        intro c hc; simpa using base_rule_digits ru' hru' hbm (h4 c hc)) r).2]
      exact dropWhile_len _ _
    have key : ∀ ru ∈ intRules, 's' ∉ ru.2.1 ∧ 'S' ∉ ru.2.1 := by decide +kernel
    obtain ⟨k1, k2⟩ := key ru' hru'
    cases hs1 : ru'.1 with
    | true =>
      rcases h2 with rfl | rfl | rfl
      · simp [scanBase, hs1, optChar, b1, b2] at hs
      · simp [scanBase, hs1, optChar] at hs
        obtain ⟨⟨hbm, _⟩, _, rfl⟩ := hs
        exact hin _ rfl hbm
      · simp [scanBase, hs1, optChar] at hs
        obtain ⟨⟨hbm, _⟩, _, rfl⟩ := hs
        exact hin _ rfl hbm
    | false =>
      rcases h2 with rfl | rfl | rfl
      · simp [scanBase, hs1, optChar] at hs
        obtain ⟨⟨hbm, _⟩, _, rfl⟩ := hs
        exact hin _ rfl hbm
      · simp [scanBase, hs1, optChar, k1] at hs
      · simp [scanBase, hs1, optChar, k2] at hs
  have hsome : intRules.findSome? (fun ru => scanBase ru (sg ++ b :: f :: (ds ++ r))) ≠ none := by
    intro hn
    rw [List.findSome?_eq_none_iff] at hn
    have hb := hn ru hru
    unfold scanBase at hb
    rcases h2 with rfl | rfl | rfl
    · simp [e1, e2, e3, optChar] at hb
    · simp [e1, e2, e3, optChar] at hb
    · simp [e1, e2, e3, optChar] at hb
  obtain ⟨⟨s', r'⟩, hx⟩ := Option.ne_none_iff_exists'.mp hsome
  obtain ⟨ru', hru', hs'⟩ := List.exists_of_findSome?_eq_some hx
  refine ⟨size ++ '\'' :: s', r', ?_, hyes ru' hru' _ _ hs'⟩
  simp only [scanBased, List.append_assoc, List.cons_append, hd.1, hd.2, hx, Option.map_some]

/-- The integer or real literal read is at least as long as any integer literal at the front. -/
theorem scanInt_more {s : Str} (h : IntLit s) (r : Str) :
    (∃ s' r', scanFloat (s ++ r) = some (s', r') ∧ r'.length < r.length) ∨
    (scanFloat (s ++ r) = none ∧ ∃ s' r', scanInt (s ++ r) = some (s', r') ∧ r'.length ≤ r.length) := by
  cases h with
  | dec d ds h1 h2 =>
    have hall : ∀ c ∈ d :: ds, isDig c = true ∨ c = '_' := by
      intro c hc; simp only [List.mem_cons] at hc; rcases hc with rfl | hc
      · exact .inl h1
      · exact h2 c hc
    cases hf : scanFloat (d :: ds ++ r) with
    | some x =>
      left
      obtain ⟨s', r'⟩ := x
      obtain ⟨g1, g2⟩ := scanFloat_digits hf
      have : (((d :: ds) ++ r).dropWhile isDig).length ≤ r.length := by
        rcases g2 with g | g | g <;> exact within_digits hall (by decide) g
      exact ⟨s', r', rfl, by omega⟩
    | none =>
      right
      refine ⟨rfl, ?_⟩
      unfold scanInt
      cases hb : scanBased (d :: ds ++ r) with
      | some x =>
        obtain ⟨s', r'⟩ := x
        refine ⟨s', r', rfl, ?_⟩
        unfold scanBased at hb
        split at hb
        · next r0 heq =>
          have := within_digits (x := '\'') hall (by decide) (r := r) (by rw [heq]; rfl)
          rw [heq] at this
          simp only [Option.map_eq_some_iff, Prod.mk.injEq] at hb
          obtain ⟨⟨a, b⟩, hx, _, rfl⟩ := hb
          obtain ⟨ru', _, hs'⟩ := List.exists_of_findSome?_eq_some hx
          have := scanBase_lt _ _ _ _ hs'
          simp at *; omega
        · simp at hb
      | none =>
        simp only [List.cons_append, h1, if_true]
        refine ⟨_, _, rfl, ?_⟩
        rw [(takeWhile_app (s := ds) (p := fun c => isDig c || c == '_') (by
          intro c hc; rcases h2 c hc with g | g <;> simp [g]) r).2]
        exact dropWhile_len _ _
  | based size sg b f ds h1 h2 h3 h4 h5 =>
    right
    have hd := takeWhile_app h1 ('\'' :: (sg ++ b :: f :: (ds ++ r)))
    have hq : isDig '\'' = false := by decide
    simp only [List.takeWhile_cons, List.dropWhile_cons, hq, Bool.false_eq_true, if_false, List.append_nil] at hd
    obtain ⟨s', r', hs, hl⟩ := scanBased_more h1 h2 h3 h4 h5 r
    refine ⟨?_, s', r', by simp only [scanInt, hs], hl⟩
    cases hf : scanFloat (size ++ '\'' :: (sg ++ b :: f :: ds) ++ r) with
    | none => rfl
    | some x =>
      obtain ⟨s', r'⟩ := x
      have g := (scanFloat_digits hf).2
      simp only [List.append_assoc, List.cons_append, hd.2] at g
      simp at g

theorem scanId_more {c : Char} {t : Str} (h1 : isIdStart c = true) (h2 : ∀ x ∈ t, isIdChar x = true) (r : Str) :
    ∃ s' r', scanId (c :: t ++ r) = some (s', r') ∧ r'.length ≤ r.length := by
  refine ⟨_, _, by simp only [List.cons_append, scanId, h1, if_true]; rfl, ?_⟩
  rw [(takeWhile_app h2 r).2]
  exact dropWhile_len _ _

theorem scanEsc_more {t : Str} (h1 : t ≠ []) (h2 : ∀ x ∈ t, isSp x = false) (r : Str) :
    ∃ s' r', scanId ('\\' :: t ++ r) = some (s', r') ∧ r'.length ≤ r.length := by
  have hb : isIdStart '\\' = false := by decide
  have h3 := takeWhile_app (s := t) (p := fun c => !isSp c) (by intro c hc; simp [h2 c hc]) r
  refine ⟨'\\' :: (t ++ r).takeWhile (fun c => !isSp c), (t ++ r).dropWhile (fun c => !isSp c), ?_, ?_⟩
  · simp only [List.cons_append, scanId, hb, Bool.false_eq_true, if_false, true_and]
    rw [if_pos (by rw [h3.1]; simp [h1])]
  · rw [h3.2]; exact dropWhile_len _ _

/-- No rule for an operator comes before a rule for a longer one. -/
theorem rules_sorted : Pun.rules.Pairwise (fun a b => ¬ (a.text <+: b.text ∧ a.text ≠ b.text)) := by decide +kernel

theorem Pun.text_inj {a b : Pun} (h : a.text = b.text) : a = b := by
  revert h; cases a <;> cases b <;> first | (intro _; rfl) | (intro h; revert h; decide)

theorem findSome_first {α : Type} {R : α → α → Prop} {l : List α} (hp : l.Pairwise R) (g : α → Bool) {k : α} (hk : k ∈ l) (hg : g k = true) :
    ∃ k', l.find? g = some k' ∧ (k' = k ∨ R k' k) := by
  induction l with
  | nil => simp at hk
  | cons a l ih =>
    rw [List.pairwise_cons] at hp
    by_cases ha : g a = true
    · refine ⟨a, by simp [ha], ?_⟩
      rcases List.mem_cons.mp hk with rfl | hk
      · exact .inl rfl
      · exact .inr (hp.1 k hk)
    · rcases List.mem_cons.mp hk with rfl | hk
      · exact absurd hg ha
      · obtain ⟨k', h1, h2⟩ := ih hp.2 hk
        exact ⟨k', by simp [ha, h1], h2⟩

theorem scanPun_find (cs : Str) : scanPun cs = (Pun.rules.find? (fun k => k.text.isPrefixOf cs)).map (fun k => (k, cs.drop k.text.length)) := by
  unfold scanPun
  induction Pun.rules with
  | nil => rfl
  | cons a l ih =>
    simp only [List.findSome?_cons, List.find?_cons]
    by_cases h : a.text.isPrefixOf cs = true
    · simp [h]
    · simp only [h, Bool.false_eq_true, if_false]
      simpa using ih

theorem scanPun_more (k : Pun) (r : Str) : ∃ k' r', scanPun (k.text ++ r) = some (k', r') ∧ r'.length ≤ r.length := by
  obtain ⟨k', h1, h2⟩ := findSome_first rules_sorted (fun x => x.text.isPrefixOf (k.text ++ r)) (k := k)
    (by cases k <;> decide) (by rw [List.isPrefixOf_iff_prefix]; exact ⟨r, rfl⟩)
  refine ⟨k', _, by rw [scanPun_find, h1]; rfl, ?_⟩
  have hp := List.find?_some h1
  simp only [List.isPrefixOf_iff_prefix] at hp
  simp only [List.length_drop, List.length_append]
  rcases h2 with rfl | h2
  · omega
  · rcases Nat.lt_or_ge k'.text.length k.text.length with hlt | hge
    · exfalso
      apply h2
      refine ⟨List.prefix_of_prefix_length_le hp ⟨r, rfl⟩ (by omega), ?_⟩
      intro e; rw [e] at hlt; omega
    · omega

theorem scanComment_exact (s r : Str) (h : ¬ ['*', '/'] <:+: s ++ ['*']) : scanComment (s ++ '*' :: '/' :: r) = some r := by
  obtain ⟨x, hx⟩ := scanComment_some s r
  obtain ⟨s2, h2, e⟩ := scanComment_cut _ _ hx
  -- both cut at the first end of comment
  suffices hh : s = s2 by
    subst hh
    have := List.append_cancel_left e
    simp at this; rw [hx, this]
  have key : ∀ (a b u v : Str), a ++ '*' :: '/' :: u = b ++ '*' :: '/' :: v → ¬ ['*', '/'] <:+: b ++ ['*'] → b.length ≤ a.length := by
    intro a b u v e hb
    by_contra hlt
    apply hb
    have h1 : a ++ ['*', '/'] <+: b ++ ['*'] := by
      refine List.prefix_of_prefix_length_le (l₃ := b ++ '*' :: '/' :: v) ?_ ?_ ?_
      · exact ⟨u, by simp [← e]⟩
      · exact ⟨'/' :: v, by simp⟩
      · simp; omega
    obtain ⟨w, hw⟩ := h1
    exact ⟨a, w, by simpa using hw⟩
  have l1 := key _ _ _ _ e h2
  have l2 := key _ _ _ _ e.symm h
  exact (List.append_inj e (by omega)).1

/-! ## One step -/

/-- The piece a step of the lexer cuts off. -/
def stepPiece (cs r : Str) : Option Tok → Piece
  | none => .gap (cs.take (cs.length - r.length))
  | some t => .tok t

theorem stepPiece_text {cs r : Str} {o : Option Tok} (h : lexTok cs = some (o, r)) : cs = (stepPiece cs r o).text ++ r ∧ (stepPiece cs r o).OK := by
  have hc := lexTok_cut cs o r h
  cases o with
  | none =>
    obtain ⟨s, h1, h2⟩ := hc
    have : cs.take (cs.length - r.length) = s := by subst h2; simp
    simp only [stepPiece, Piece.text, Piece.OK, this]
    exact ⟨h2, h1⟩
  | some t => exact ⟨hc.2, hc.1⟩

theorem skip_none_of {c : Char} {cs : Str} (h : c ≠ '`' ∧ c ≠ '/') : scanSkip (c :: cs) = none := by
  unfold scanSkip
  split <;> simp_all

theorem quoted_none_of {c : Char} {cs : Str} (h : c ≠ '"') : scanQuoted (c :: cs) = none := by
  unfold scanQuoted; split <;> simp_all

theorem float_none_of {c : Char} {cs : Str} (h : isDig c = false) (h' : c ≠ '.') : scanFloat (c :: cs) = none := by
  unfold scanFloat
  simp only [List.takeWhile_cons, List.dropWhile_cons, h, Bool.false_eq_true, if_false]
  split
  · next heq => simp at heq; exact absurd heq.1 h'
  · simp

theorem int_none_of {c : Char} {cs : Str} (h : isDig c = false) (h' : c ≠ '\'') : scanInt (c :: cs) = none := by
  have : scanBased (c :: cs) = none := by
    unfold scanBased
    simp only [List.dropWhile_cons, h, Bool.false_eq_true, if_false]
    split
    · next heq => simp at heq; exact absurd heq.1 h'
    · rfl
  simp [scanInt, this, h]

theorem id_none_of {c : Char} {cs : Str} (h : isIdStart c = false) (h' : c ≠ '\\') : scanId (c :: cs) = none := by
  simp [scanId, h, h']

theorem start_notdig {c : Char} (h : isIdStart c = true) : isDig c = false := by
  by_contra hd
  simp only [Bool.not_eq_false, isDig, Bool.and_eq_true, decide_eq_true_eq] at hd
  simp only [isIdStart, isLet, Bool.or_eq_true, Bool.and_eq_true, decide_eq_true_eq, beq_iff_eq] at h
  have h1 := hd.1; have h2 := hd.2
  rcases h with (⟨h3, h4⟩ | ⟨h3, h4⟩) | rfl
  · exact absurd (Char.le_trans h3 h2) (by decide)
  · exact absurd (Char.le_trans h3 h2) (by decide)
  · exact absurd h2 (by decide)

/-- At a piece, the lexer cuts off that piece or a longer one. -/
theorem lexTok_longest (q : Piece) (hq : q.OK) (hb : q.text ≠ [' '] ∧ q.text ≠ ['\t']) (r : Str) :
    ∃ o r', lexTok (q.text ++ r) = some (o, r') ∧ r'.length ≤ r.length ∧ (r'.length = r.length → stepPiece (q.text ++ r) r' o = q) := by
  have fin : ∀ {o : Option Tok} {r' : Str}, lexTok (q.text ++ r) = some (o, r') → r'.length ≤ r.length →
      (∀ s', s' = q.text → (stepPiece (q.text ++ r) r' o).text = s' → r' = r → stepPiece (q.text ++ r) r' o = q) →
      ∃ o r', lexTok (q.text ++ r) = some (o, r') ∧ r'.length ≤ r.length ∧ (r'.length = r.length → stepPiece (q.text ++ r) r' o = q) := by
    intro o r' h1 h2 h3
    refine ⟨o, r', h1, h2, fun hl => ?_⟩
    have := (stepPiece_text h1).1
    obtain ⟨e1, e2⟩ := List.append_inj' this hl.symm
    exact h3 _ rfl e1.symm e2.symm
  cases q with
  | gap s =>
    have done : lexTok (s ++ r) = some (none, r) → ∃ o r', lexTok (s ++ r) = some (o, r') ∧ r'.length ≤ r.length ∧
        (r'.length = r.length → stepPiece (s ++ r) r' o = .gap s) := by
      intro h
      exact ⟨none, r, h, Nat.le_refl _, fun _ => by simp [stepPiece]⟩
    show ∃ o r', lexTok (s ++ r) = some (o, r') ∧ r'.length ≤ r.length ∧ (r'.length = r.length → stepPiece (s ++ r) r' o = .gap s)
    cases hq with
    | blank => exact absurd rfl hb.1
    | tab => exact absurd rfl hb.2
    | newline =>
      apply done
      simp only [List.cons_append, List.nil_append, lexTok, skip_none_of (c := '\n') (by decide), quoted_none_of (c := '\n') (by decide),
        float_none_of (c := '\n') (by decide) (by decide), int_none_of (c := '\n') (by decide) (by decide),
        id_none_of (c := '\n') (by decide) (by decide)]
    | line s hs => apply done; simp only [List.cons_append, List.append_assoc, List.nil_append, lexTok, scanSkip, scanLine_some hs]
    | block s hs => apply done; simp only [List.cons_append, List.append_assoc, List.nil_append, lexTok, scanSkip, scanComment_exact s r hs]
    | directive s hs => apply done; simp only [List.cons_append, List.append_assoc, List.nil_append, lexTok, scanSkip, scanLine_some hs]
  | tok t =>
    cases t with
    | str s =>
      obtain ⟨b, g1, rfl⟩ := hq
      refine fin (o := some (.str ('"' :: b ++ ['"']))) (r' := r) ?_ (Nat.le_refl _) ?_
      · simp only [Piece.text, Tok.text, List.cons_append, List.append_assoc, List.nil_append, lexTok, skip_none_of (c := '"') (by decide),
          scanQuoted, scanStr_some g1]
      · intro s' _ _ _; rfl
    | flt s =>
      obtain ⟨s', r', h1, h2⟩ := scanFloat_more hq r
      have hhead : ∃ c u, s = c :: u ∧ (isDig c = true ∨ c = '.') := by
        cases hq with
        | frac d f x g1 _ _ _ =>
          cases d with
          | nil => exact ⟨_, _, rfl, .inr rfl⟩
          | cons d ds => exact ⟨_, _, rfl, .inl (g1 d (by simp))⟩
        | expo d x g1 g2 _ =>
          cases d with
          | nil => exact absurd rfl g2
          | cons d ds => exact ⟨_, _, rfl, .inl (g1 d (by simp))⟩
      obtain ⟨c, u, rfl, hc⟩ := hhead
      have hc' : (c ≠ '`' ∧ c ≠ '/') ∧ c ≠ '"' := by
        refine ⟨⟨?_, ?_⟩, ?_⟩ <;> (rintro rfl; revert hc; decide)
      have hl : lexTok (c :: u ++ r) = some (some (.flt s'), r') := by
        have e1 := skip_none_of (cs := u ++ r) hc'.1
        have e2 := quoted_none_of (cs := u ++ r) hc'.2
        rw [← List.cons_append] at e1 e2
        simp only [lexTok, e1, e2, h1]
      refine fin hl h2 ?_
      rintro _ rfl ht _
      simp only [stepPiece, Piece.text, Tok.text] at ht ⊢
      rw [ht]
    | int s =>
      have hhead : ∃ c u, s = c :: u ∧ (isDig c = true ∨ c = '\'') := by
        cases hq with
        | dec d ds g _ => exact ⟨_, _, rfl, .inl g⟩
        | based size sg b f ds g1 _ _ _ _ =>
          cases size with
          | nil => exact ⟨_, _, rfl, .inr rfl⟩
          | cons d ds => exact ⟨_, _, rfl, .inl (g1 d (by simp))⟩
      have hm := scanInt_more hq r
      obtain ⟨c, u, rfl, hc⟩ := hhead
      have hc' : (c ≠ '`' ∧ c ≠ '/') ∧ c ≠ '"' := by
        refine ⟨⟨?_, ?_⟩, ?_⟩ <;> (rintro rfl; revert hc; decide)
      have e1 := skip_none_of (cs := u ++ r) hc'.1
      have e2 := quoted_none_of (cs := u ++ r) hc'.2
      rw [← List.cons_append] at e1 e2
      rcases hm with ⟨s', r', h1, h2⟩ | ⟨h0, s', r', h1, h2⟩
      · refine ⟨some (.flt s'), r', ?_, by omega, by omega⟩
        simp only [Piece.text, Tok.text, lexTok, e1, e2, h1]
      · have hl : lexTok (c :: u ++ r) = some (some (.int s'), r') := by simp only [lexTok, e1, e2, h0, h1]
        refine fin hl h2 ?_
        rintro _ rfl ht _
        simp only [stepPiece, Piece.text, Tok.text] at ht ⊢
        rw [ht]
    | id s =>
      have key : ∀ (c : Char) (u : Str), s = c :: u → (isIdStart c = true ∨ c = '\\') → (∃ s' r', scanId (s ++ r) = some (s', r') ∧ r'.length ≤ r.length) →
          s ∉ reservedWords → ∃ o r', lexTok (s ++ r) = some (o, r') ∧ r'.length ≤ r.length ∧ (r'.length = r.length → stepPiece (s ++ r) r' o = .tok (.id s)) := by
        rintro c u rfl hc ⟨s', r', h1, h2⟩ hr
        have hn : ((c ≠ '`' ∧ c ≠ '/') ∧ c ≠ '"') ∧ c ≠ '.' ∧ c ≠ '\'' := by
          refine ⟨⟨⟨?_, ?_⟩, ?_⟩, ?_, ?_⟩ <;> (rintro rfl; revert hc; decide)
        have hd : isDig c = false := by
          rcases hc with hc | rfl
          · exact start_notdig hc
          · decide
        have e1 := skip_none_of (cs := u ++ r) hn.1.1
        have e2 := quoted_none_of (cs := u ++ r) hn.1.2
        have e3 := float_none_of (cs := u ++ r) hd hn.2.1
        have e4 := int_none_of (cs := u ++ r) hd hn.2.2
        rw [← List.cons_append] at e1 e2 e3 e4
        have hl : lexTok (c :: u ++ r) = some (some (if s' ∈ reservedWords then .kw s' else .id s'), r') := by simp only [lexTok, e1, e2, e3, e4, h1]
        refine fin hl h2 ?_
        rintro _ rfl ht _
        have : s' = c :: u := by
          simp only [stepPiece, Piece.text] at ht
          split at ht <;> simpa [Tok.text] using ht
        subst this
        simp [stepPiece, hr]
      rcases hq with ⟨⟨d, t, rfl, g1, g2⟩, g3⟩ | ⟨t, rfl, g1, g2⟩
      · exact key d t rfl (.inl g1) (scanId_more g1 g2 r) g3
      · refine key '\\' t rfl (.inr rfl) (scanEsc_more g1 g2 r) ?_
        have : ∀ w ∈ reservedWords, w.head? ≠ some '\\' := by decide +kernel
        intro hm; exact this _ hm rfl
    | kw s =>
      have hw : ∀ w ∈ reservedWords, (∃ c, w.head? = some c ∧ isIdStart c = true) ∧ ∀ x ∈ w, isIdChar x = true := by
        have : ∀ w ∈ reservedWords, w.head?.any isIdStart = true ∧ w.all isIdChar = true := by decide +kernel
        intro w hw
        obtain ⟨a, b⟩ := this w hw
        refine ⟨?_, by simpa using b⟩
        cases w with
        | nil => simp at a
        | cons c w => exact ⟨c, rfl, by simpa using a⟩
      obtain ⟨⟨c, hc1, hc⟩, hall⟩ := hw s hq
      cases s with
      | nil => simp at hc1
      | cons d u =>
        simp at hc1; subst hc1
        obtain ⟨s', r', h1, h2⟩ := scanId_more (t := u) hc (fun x hx => hall x (by simp [hx])) r
        have hn : ((d ≠ '`' ∧ d ≠ '/') ∧ d ≠ '"') ∧ d ≠ '.' ∧ d ≠ '\'' := by
          refine ⟨⟨⟨?_, ?_⟩, ?_⟩, ?_, ?_⟩ <;> (rintro rfl; revert hc; decide)
        have hd := start_notdig hc
        have e1 := skip_none_of (cs := u ++ r) hn.1.1
        have e2 := quoted_none_of (cs := u ++ r) hn.1.2
        have e3 := float_none_of (cs := u ++ r) hd hn.2.1
        have e4 := int_none_of (cs := u ++ r) hd hn.2.2
        rw [← List.cons_append] at e1 e2 e3 e4
        have hl : lexTok (d :: u ++ r) = some (some (if s' ∈ reservedWords then .kw s' else .id s'), r') := by simp only [lexTok, e1, e2, e3, e4, h1]
        refine fin hl h2 ?_
        rintro _ rfl ht _
        have : s' = d :: u := by
          simp only [stepPiece, Piece.text] at ht
          split at ht <;> simpa [Tok.text] using ht
        subst this
        have hm : (d :: u) ∈ reservedWords := hq
        simp [stepPiece, hm]
    | p k =>
      obtain ⟨k', r', h1, h2⟩ := scanPun_more k r
      obtain ⟨c, u, hk, hcl⟩ : ∃ c u, k.text = c :: u ∧ (c ≠ '`' ∧ c ≠ '"' ∧ isDig c = false ∧ c ≠ '\'' ∧ isIdStart c = false ∧ c ≠ '\\' ∧ c ≠ '\n') := by
        cases k <;> exact ⟨_, _, rfl, by decide⟩
      have hk1 : k.text.length = u.length + 1 := by rw [hk]; rfl
      show ∃ o r', lexTok (k.text ++ r) = some (o, r') ∧ r'.length ≤ r.length ∧ (r'.length = r.length → stepPiece (k.text ++ r) r' o = .tok (.p k))
      -- a comment
      cases hs : scanSkip (k.text ++ r) with
      | some rs =>
        refine ⟨none, rs, by simp only [lexTok, hs], ?_⟩
        have hlt : rs.length < r.length := by
          have hk2 : c = '/' := by
            by_contra hne
            rw [hk, List.cons_append, skip_none_of ⟨hcl.1, hne⟩] at hs
            simp at hs
          subst hk2
          have hu : u = [] := by revert hk; cases k <;> (intro hk; revert hk; simp [Pun.text]; try (intro h; exact h.symm))
          subst hu
          rw [hk] at hs
          cases r with
          | nil => simp [scanSkip] at hs
          | cons a r =>
            simp only [List.cons_append, List.nil_append] at hs
            unfold scanSkip at hs
            split at hs
            · next heq => simp at heq
            · next heq => simp at heq; obtain ⟨rfl, rfl⟩ := heq; have := scanLine_lt _ _ hs; simp; omega
            · next heq => simp at heq; obtain ⟨rfl, rfl⟩ := heq; have := scanComment_lt _ _ hs; simp; omega
            · simp at hs
        exact ⟨by omega, by omega⟩
      | none =>
        have e2 := quoted_none_of (cs := u ++ r) hcl.2.1
        have e4 := int_none_of (cs := u ++ r) hcl.2.2.1 hcl.2.2.2.1
        have e5 := id_none_of (cs := u ++ r) hcl.2.2.2.2.1 hcl.2.2.2.2.2.1
        rw [← List.cons_append, ← hk] at e2 e4 e5
        cases hf : scanFloat (k.text ++ r) with
        | some x =>
          obtain ⟨s', rs⟩ := x
          refine ⟨some (.flt s'), rs, by simp only [lexTok, hs, e2, hf], ?_⟩
          have hk2 : c = '.' := by
            by_contra hne
            rw [hk, List.cons_append, float_none_of hcl.2.2.1 hne] at hf
            simp at hf
          subst hk2
          have hu : u = [] := by revert hk; cases k <;> (intro hk; revert hk; simp [Pun.text]; try (intro h; exact h.symm))
          subst hu
          obtain ⟨hfl, hcut⟩ := scanFloat_cut _ _ _ hf
          have hlt : rs.length < r.length := by
            have hl : 2 ≤ s'.length := by
              cases hfl with
              | frac d f x _ _ g _ =>
                cases d with
                | nil => cases f with
                  | nil => exact absurd ⟨rfl, rfl⟩ g
                  | cons a f => simp
                | cons a d => simp; omega
              | expo d x _ g g' =>
                obtain ⟨e, t, rfl, _⟩ := exp_head g'
                cases d with
                | nil => exact absurd rfl g
                | cons a d => simp; omega
            have := congrArg List.length hcut
            rw [hk] at this
            simp at this; omega
          exact ⟨by omega, by omega⟩
        | none =>
          have hl : lexTok (k.text ++ r) = some (some (.p k'), r') := by
            have hnl : ∀ r0, k.text ++ r = '\n' :: r0 → False := by
              intro r0 h; rw [hk] at h; simp at h; exact hcl.2.2.2.2.2.2 h.1
            simp only [lexTok, hs, e2, hf, e4, e5, h1]
            try (split
                 · next heq => exact absurd (hnl _ heq) id
                 · rfl)
          refine fin hl h2 ?_
          rintro _ rfl ht _
          simp only [stepPiece, Piece.text, Tok.text] at ht ⊢
          rw [Pun.text_inj ht]

/-- At a blank, a blank is the only piece. -/
theorem blank_only {c : Char} (hc : c = ' ' ∨ c = '\t') (cs : Str) (q : Piece) (hq : q.OK) (h : q.text <+: c :: cs) : q = .gap [c] := by
  have hcl : c ≠ '`' ∧ c ≠ '/' ∧ c ≠ '"' ∧ isDig c = false ∧ c ≠ '.' ∧ c ≠ '\'' ∧ isIdStart c = false ∧ c ≠ '\\' ∧ c ≠ '\n' := by
    rcases hc with rfl | rfl <;> decide
  by_cases hb : q.text ≠ [' '] ∧ q.text ≠ ['\t']
  · exfalso
    obtain ⟨r, hr⟩ := h
    obtain ⟨o, r', h1, _⟩ := lexTok_longest q hq hb r
    rw [hr] at h1
    have hp : scanPun (c :: cs) = none := by
      unfold scanPun
      rw [List.findSome?_eq_none_iff]
      intro k _
      rw [if_neg]
      rcases hc with rfl | rfl <;> cases k <;> simp [Pun.text]
    have hn : ∀ r0, c :: cs = '\n' :: r0 → False := by
      intro r0 h; simp at h; exact hcl.2.2.2.2.2.2.2.2 h.1
    simp only [lexTok, skip_none_of (cs := cs) ⟨hcl.1, hcl.2.1⟩, quoted_none_of (cs := cs) hcl.2.2.1, float_none_of (cs := cs) hcl.2.2.2.1 hcl.2.2.2.2.1,
      int_none_of (cs := cs) hcl.2.2.2.1 hcl.2.2.2.2.2.1, id_none_of (cs := cs) hcl.2.2.2.2.2.2.1 hcl.2.2.2.2.2.2.2.1, hp] at h1
    simp at h1
  · have hb' : q.text = [' '] ∨ q.text = ['\t'] := by by_cases e : q.text = [' ']; exact .inl e; exact .inr (by simpa [e] using hb)
    have ht : q.text = [c] := by
      obtain ⟨r, hr⟩ := h
      rcases hb' with e | e <;> (rw [e] at hr ⊢; simp at hr; rw [hr.1])
    cases q with
    | gap s => simp only [Piece.text] at ht; rw [ht]
    | tok t =>
      exfalso
      simp only [Piece.text, Piece.OK] at ht hq
      cases t with
      | p k => simp only [Tok.text] at ht; rcases hc with rfl | rfl <;> revert ht <;> cases k <;> simp [Pun.text]
      | id s =>
        simp only [Tok.text] at ht; subst ht
        rcases hq with ⟨⟨d, t, e, g1, _⟩, _⟩ | ⟨t, e, g1, _⟩
        · simp at e; rw [← e.1, hcl.2.2.2.2.2.2.1] at g1; simp at g1
        · simp at e; exact g1 e.2
      | kw s =>
        simp only [Tok.text] at ht; subst ht
        rcases hc with rfl | rfl <;> exact absurd (show _ ∈ reservedWords from hq) (by decide +kernel)
      | int s =>
        simp only [Tok.text] at ht; subst ht
        have : scanInt ([c] ++ []) ≠ none := scanInt_lit hq []
        rw [List.cons_append, int_none_of hcl.2.2.2.1 hcl.2.2.2.2.2.1] at this; exact this rfl
      | flt s =>
        simp only [Tok.text] at ht; subst ht
        obtain ⟨s', r', h1, _⟩ := scanFloat_more hq []
        rw [List.cons_append, float_none_of hcl.2.2.2.1 hcl.2.2.2.2.1] at h1; simp at h1
      | str s =>
        obtain ⟨b, _, rfl⟩ := hq
        simp [Tok.text] at ht

/-- No piece is empty. -/
theorem piece_pos (p : Piece) (hp : p.OK) : 0 < p.text.length := by
  by_cases hb : p.text ≠ [' '] ∧ p.text ≠ ['\t']
  · obtain ⟨o, r', h1, h2, _⟩ := lexTok_longest p hp hb []
    have := lexTok_shrinks _ _ _ h1
    simp at this
    omega
  · have hb' : p.text = [' '] ∨ p.text = ['\t'] := by
      by_cases e : p.text = [' ']
      · exact .inl e
      · exact .inr (by simpa [e] using hb)
    rcases hb' with e | e <;> rw [e] <;> decide

/-- What the lexer cuts off is at least as long as every piece at the front. -/
theorem step_longest {c : Char} {cs r : Str} {o : Option Tok} (hc : ¬ (c = ' ' ∨ c = '\t')) (h : lexTok (c :: cs) = some (o, r)) (q : Piece) (hq : q.OK)
    (hp : q.text <+: c :: cs) : q.text.length ≤ (stepPiece (c :: cs) r o).text.length ∧
      (q.text.length = (stepPiece (c :: cs) r o).text.length → stepPiece (c :: cs) r o = q) := by
  obtain ⟨r0, hr0⟩ := hp
  have hb : q.text ≠ [' '] ∧ q.text ≠ ['\t'] := by
    constructor <;> (intro e; rw [e] at hr0; simp at hr0; exact hc (by simp [← hr0.1]))
  obtain ⟨o', r', h1, h2, h3⟩ := lexTok_longest q hq hb r0
  rw [hr0, h] at h1
  simp only [Option.some.injEq, Prod.mk.injEq] at h1
  obtain ⟨rfl, rfl⟩ := h1
  have hl := congrArg List.length (stepPiece_text h).1
  have hl' := congrArg List.length hr0
  simp only [List.length_append] at hl hl'
  rw [hr0] at h3
  exact ⟨by omega, fun e => h3 (by omega)⟩

/-- The longest piece at the front of a text is the one the lexer cuts off. -/
theorem munch_first {p : Piece} {t : Str} (hp : p.OK) (hmax : ∀ q : Piece, q.OK → q.text <+: p.text ++ t → q.text.length ≤ p.text.length) :
    (∃ c, (c = ' ' ∨ c = '\t') ∧ p = .gap [c]) ∨
    (∃ c cs o, p.text ++ t = c :: cs ∧ ¬ (c = ' ' ∨ c = '\t') ∧ lexTok (c :: cs) = some (o, t) ∧ stepPiece (c :: cs) t o = p) := by
  by_cases hb : p.text ≠ [' '] ∧ p.text ≠ ['\t']
  · right
    obtain ⟨o, r', h1, h2, h3⟩ := lexTok_longest p hp hb t
    obtain ⟨g1, g2⟩ := stepPiece_text h1
    have := hmax _ g2 ⟨r', g1.symm⟩
    have hl := congrArg List.length g1
    simp only [List.length_append] at hl
    have hle : r'.length = t.length := by omega
    have h3 := h3 hle
    rw [h3] at g1
    have ht : t = r' := List.append_cancel_left g1
    subst ht
    have hne : p.text ++ t ≠ [] := by intro e; rw [e] at h1; simp [lexTok, scanSkip, scanQuoted, scanFloat, scanInt, scanBased, scanId, scanExp] at h1; revert h1; simp [show scanPun [] = none by decide]
    obtain ⟨c, cs, hcs⟩ := List.exists_cons_of_ne_nil hne
    refine ⟨c, cs, o, hcs, ?_, hcs ▸ h1, hcs ▸ h3⟩
    intro hc
    have := blank_only hc cs p hp ⟨t, hcs⟩
    subst this
    rcases hc with rfl | rfl
    · exact hb.1 rfl
    · exact hb.2 rfl
  · left
    have hb' : p.text = [' '] ∨ p.text = ['\t'] := by
      by_cases e : p.text = [' ']
      · exact .inl e
      · exact .inr (by simpa [e] using hb)
    rcases hb' with e | e
    · exact ⟨' ', .inl rfl, blank_only (.inl rfl) t p hp ⟨t, by rw [e]; rfl⟩⟩
    · exact ⟨'\t', .inr rfl, blank_only (.inr rfl) t p hp ⟨t, by rw [e]; rfl⟩⟩

/-! ## C89 -/

theorem munch_unique {text : Str} {ps : List Piece} {r : Str} (h : Munch text ps r) : ∀ {ps' : List Piece} {r' : Str}, Munch text ps' r' →
    ps.length = ps'.length → ps = ps' ∧ r = r' := by
  induction h with
  | stop rest =>
    intro ps' r' h' hl
    cases h' with
    | stop => exact ⟨rfl, rfl⟩
    | cut => simp at hl
  | cut p ps text rest hp hmax hm ih =>
    intro ps' r' h' hl
    generalize htx : p.text ++ text = tx at h'
    cases h' with
    | stop => simp at hl
    | cut q qs text' _ hq hmax' hm' =>
      have hpq : p = q := by
        rcases munch_first hp hmax with ⟨c, hc, rfl⟩ | ⟨c, cs, o, e1, hc, e2, e3⟩
        · exact (blank_only hc text q hq ⟨text', htx.symm⟩).symm
        · rcases munch_first hq hmax' with ⟨c', hc', rfl⟩ | ⟨c', cs', o', e1', hc', e2', e3'⟩
          · rw [htx] at e1
            simp only [Piece.text, List.cons_append, List.nil_append, List.cons.injEq] at e1
            exact absurd (e1.1 ▸ hc') hc
          · rw [htx, e1'] at e1
            simp only [List.cons.injEq] at e1
            obtain ⟨rfl, rfl⟩ := e1
            rw [e2] at e2'
            simp only [Option.some.injEq, Prod.mk.injEq] at e2'
            obtain ⟨rfl, rfl⟩ := e2'
            rw [← e3, ← e3']
      subst hpq
      have := List.append_cancel_left htx
      subst this
      obtain ⟨h1, h2⟩ := ih hm' (by simpa using hl)
      exact ⟨by rw [h1], h2⟩

/-- The lexer goes on from any point of the longest cuts. -/
theorem lex_munch {text : Str} {ps : List Piece} {r : Str} (h : Munch text ps r) : lex text = (lex r).map (pieceToks ps ++ ·) := by
  induction h with
  | stop rest => simp [pieceToks]
  | cut p ps text rest hp hmax hm ih =>
    rcases munch_first hp hmax with ⟨c, hc, rfl⟩ | ⟨c, cs, o, e1, hc, e2, e3⟩
    · have : lex (c :: text) = lex text := by simp only [lex, List.length_cons, lexN, if_pos hc]
      simp only [Piece.text, List.cons_append, List.nil_append, this, pieceToks, ih]
    · rw [e1]
      have hlen := lexTok_shrinks _ _ _ e2
      simp only [List.length_cons] at hlen
      have hn : lexN cs.length text = lex text := lexN_of_lex _ _ (by omega) _ (Nat.le_refl _)
      cases o with
      | none =>
        simp only [lex, List.length_cons, lexN, if_neg hc, e2]
        rw [hn, ih, ← e3]; simp [stepPiece, pieceToks, lex]
      | some t =>
        simp only [lex, List.length_cons, lexN, if_neg hc, e2]
        rw [hn, ih, ← e3]
        simp only [stepPiece, pieceToks]
        change Option.map _ (Option.map _ (lex rest)) = Option.map _ (lex rest)
        cases lex rest <;> simp

/-- Cutting goes on to the end of the text, or to a place where nothing can be cut. -/
theorem munch_total : ∀ (n : Nat) (text : Str), text.length ≤ n → ∃ ps r, Munch text ps r ∧ (r ≠ [] → lex r = none ∧ ∀ q : Piece, q.OK → ¬ q.text <+: r)
  | _, [], _ => ⟨[], [], .stop _, fun h => absurd rfl h⟩
  | 0, _ :: _, h => by simp at h
  | n + 1, c :: cs, h => by
    simp only [List.length_cons] at h
    by_cases hc : c = ' ' ∨ c = '\t'
    · obtain ⟨ps, r, h1, h2⟩ := munch_total n cs (by omega)
      refine ⟨.gap [c] :: ps, r, .cut (.gap [c]) ps cs r ?_ ?_ h1, h2⟩
      · rcases hc with rfl | rfl
        · exact .blank
        · exact .tab
      · intro q hq hpre
        rw [blank_only hc cs q hq hpre]; exact Nat.le_refl _
    · cases hl : lexTok (c :: cs) with
      | none =>
        refine ⟨[], c :: cs, .stop _, fun _ => ⟨?_, fun q hq => lexTok_none_pieces hl hc q hq⟩⟩
        simp only [lex, List.length_cons, lexN, if_neg hc, hl]
      | some x =>
        obtain ⟨o, r0⟩ := x
        have hlen := lexTok_shrinks _ _ _ hl
        simp only [List.length_cons] at hlen
        obtain ⟨ps, r, h1, h2⟩ := munch_total n r0 (by omega)
        obtain ⟨g1, g2⟩ := stepPiece_text hl
        refine ⟨stepPiece (c :: cs) r0 o :: ps, r, ?_, h2⟩
        have := Munch.cut (stepPiece (c :: cs) r0 o) ps r0 r g2 (by
          rw [← g1]; intro q hq hpre; exact (step_longest hc hl q hq hpre).1) h1
        rwa [← g1] at this

/-- **C89** The tokens the parser gets are those obtained by cutting off, again and again, the longest token, blank,
newline, comment or directive at the front of the text; they are read exactly when this uses up the whole text. -/
theorem C89_longest (text : Str) (ts : List Tok) : lex text = some ts ↔ ∃ ps, Munch text ps [] ∧ ts = pieceToks ps := by
  constructor
  · intro h
    obtain ⟨ps, r, h1, h2⟩ := munch_total text.length text (Nat.le_refl _)
    have h3 := lex_munch h1
    cases r with
    | nil =>
      refine ⟨ps, h1, ?_⟩
      rw [h] at h3; simpa [lex, lexN] using h3
    | cons c r =>
      rw [(h2 (by simp)).1, h] at h3; simp at h3
  · rintro ⟨ps, h1, rfl⟩
    rw [lex_munch h1]; simp [lex, lexN]

/-- **C89** There is a lexical error exactly when the cuts lead to a place, before the end of the text, where no token, blank,
newline, comment or directive begins. -/
theorem C89_error (text : Str) : lex text = none ↔ ∃ ps r, Munch text ps r ∧ r ≠ [] ∧ ∀ q : Piece, q.OK → ¬ q.text <+: r := by
  constructor
  · intro h
    obtain ⟨ps, r, h1, h2⟩ := munch_total text.length text (Nat.le_refl _)
    by_cases hr : r = []
    · subst hr; rw [(C89_longest text _).mpr ⟨ps, h1, rfl⟩] at h; simp at h
    · exact ⟨ps, r, h1, hr, (h2 hr).2⟩
  · rintro ⟨ps, r, h1, hr, h2⟩
    rw [lex_munch h1]
    obtain ⟨ps', r', g1, g2⟩ := munch_total r.length r (Nat.le_refl _)
    cases g1 with
    | stop => rw [(g2 hr).1]; rfl
    | cut p ps t _ hp _ _ => exact absurd ⟨t, rfl⟩ (h2 p hp)

theorem reserved_iff (w : Str) : w ∈ reservedWords ↔ Keyword (String.ofList w) := by
  constructor
  · intro h
    simp only [reservedWords, List.mem_map, List.mem_cons, List.not_mem_nil, or_false] at h
    obtain ⟨x, hx, rfl⟩ := h
    rw [String.ofList_toList]
    rcases hx with rfl | rfl | rfl | rfl | rfl | rfl | rfl | rfl | rfl | rfl | rfl | rfl | rfl | rfl | rfl | rfl | rfl |
      rfl | rfl | rfl | rfl | rfl | rfl | rfl | rfl | rfl | rfl | rfl | rfl | rfl | rfl | rfl | rfl | rfl | rfl | rfl |
      rfl | rfl | rfl | rfl | rfl | rfl | rfl | rfl | rfl | rfl | rfl | rfl | rfl <;>
    first
      | exact .unit _ (by decide)
      | exact .declare _ (by decide)
      | exact .process _ (by decide)
      | exact .choose _ (by decide)
      | exact .flow _ (by decide)
  · intro h
    have hw : w = (String.ofList w).toList := by simp
    rw [hw]
    generalize String.ofList w = x at h
    simp only [reservedWords]
    refine List.mem_map_of_mem ?_
    cases h with
    | unit h => rcases h with h | h | h | h | h | h | h | h <;> subst h <;> decide
    | declare h => rcases h with h | h | h | h | h | h | h | h | h | h | h | h | h | h | h <;> subst h <;> decide
    | process h => rcases h with h | h | h | h | h | h | h | h | h <;> subst h <;> decide
    | choose h => rcases h with h | h | h | h | h | h | h | h <;> subst h <;> decide
    | flow h => rcases h with h | h | h | h | h | h | h | h | h <;> subst h <;> decide

/-- **C89** A word (a letter or `_`, then letters, digits, `_` and `$`) is read as one token: as a reserved word if it is
one of Verilog's, and as a name if it is not. -/
theorem C89_words (w : Str) (h : ∃ c r, w = c :: r ∧ isIdStart c = true ∧ ∀ x ∈ r, isIdChar x = true) :
    (Keyword (String.ofList w) → lex w = some [.kw w]) ∧ (¬ Keyword (String.ofList w) → lex w = some [.id w]) := by
  have one : ∀ t : Tok, (Piece.tok t).OK → (Piece.tok t).text = w → lex w = some [t] := by
    intro t h1 h2
    refine (C89_longest w _).mpr ⟨[.tok t], ?_, rfl⟩
    have := Munch.cut (.tok t) [] [] [] h1 (by intro q _ hq; rw [List.append_nil] at hq; exact hq.length_le) (.stop [])
    rwa [List.append_nil, h2] at this
  rw [← reserved_iff]
  exact ⟨fun hk => one (.kw w) hk rfl, fun hk => one (.id w) (Or.inl ⟨h, hk⟩) rfl⟩

example : lex "casez".toList = some [.kw "casez".toList] ∧ lex "casey".toList = some [.id "casey".toList] :=
  ⟨(C89_words _ ⟨'c', _, rfl, by decide, by decide⟩).1 (.choose _ (by decide)),
   (C89_words _ ⟨'c', _, rfl, by decide, by decide⟩).2 (by rw [← reserved_iff]; decide)⟩

/-- **C89** The cuts are determined by the text: no text can be read in two ways. -/
theorem C89_unique (text : Str) (ps ps' : List Piece) (h : Munch text ps []) (h' : Munch text ps' []) : ps = ps' := by
  have key : ∀ {text : Str} {ps : List Piece} {r : Str}, Munch text ps r → r = [] → ∀ {ps' : List Piece}, Munch text ps' [] → ps.length = ps'.length := by
    intro text ps r h
    induction h with
    | stop rest =>
      rintro rfl ps' h'
      generalize ht : ([] : Str) = tx at h'
      cases h' with
      | stop => rfl
      | cut p ps t _ hp =>
        exfalso
        have h0 := piece_pos p hp
        have := congrArg List.length ht
        simp only [List.length_append, List.length_nil] at this; omega
    | cut p ps text rest hp hmax hm ih =>
      rintro rfl ps' h'
      generalize htx : p.text ++ text = tx at h'
      cases h' with
      | stop =>
        exfalso
        have h0 := piece_pos p hp
        have := congrArg List.length htx
        simp only [List.length_append, List.length_nil] at this; omega
      | cut q qs text' _ hq hmax' hm' =>
        have h1 : Munch (p.text ++ text) [p] text := .cut p [] text text hp hmax (.stop _)
        have h2 : Munch (p.text ++ text) [q] text' := htx ▸ .cut q [] text' text' hq hmax' (.stop _)
        obtain ⟨_, rfl⟩ := munch_unique h1 h2 rfl
        simp [ih rfl hm']
  exact (munch_unique h h' (key h rfl h')).1

/-! ## Where the pieces are not those of Verilog -/

/-- **C89** False for signed binary literals that begin with `X`, such as `4'sbX1`, which Verilog allows: every text that
begins with one is a lexical error. -/
theorem C89_signedX_false (size r : Str) (s b : Char) (hsz : ∀ c ∈ size, isDig c = true) (hs : s = 's' ∨ s = 'S') (hb : b = 'b' ∨ b = 'B') :
    lex (size ++ '\'' :: s :: b :: 'X' :: r) = none := by
  have hq : lex ('\'' :: s :: b :: 'X' :: r) = none := by
    have h1 : scanInt ('\'' :: s :: b :: 'X' :: r) = none := by
      rcases hs with rfl | rfl <;> rcases hb with rfl | rfl <;>
        simp [scanInt, scanBased, isDig, intRules, scanBase, optChar]
    have h2 : scanPun ('\'' :: s :: b :: 'X' :: r) = none := by
      unfold scanPun
      rw [List.findSome?_eq_none_iff]
      intro k _
      rw [if_neg]
      cases k <;> simp [Pun.text]
    have h3 : lexTok ('\'' :: s :: b :: 'X' :: r) = none := by
      simp only [lexTok, skip_none_of (c := '\'') (by decide), quoted_none_of (c := '\'') (by decide), float_none_of (c := '\'') (by decide) (by decide),
        id_none_of (c := '\'') (by decide) (by decide), h1, h2]
      split
      · next heq => simp at heq
      · rfl
    simp [lex, lexN, h3]
  cases size with
  | nil => exact hq
  | cons d ds =>
    have hd := hsz d (by simp)
    have hdq : isDig '\'' = false := by decide
    have htw := takeWhile_app hsz ('\'' :: s :: b :: 'X' :: r)
    simp only [List.takeWhile_cons, List.dropWhile_cons, hdq, Bool.false_eq_true, if_false, List.append_nil] at htw
    have hne : ¬ (d = ' ' ∨ d = '\t') := by rintro (rfl | rfl) <;> revert hd <;> decide
    have hne2 : (d ≠ '`' ∧ d ≠ '/') ∧ d ≠ '"' := by
      refine ⟨⟨?_, ?_⟩, ?_⟩ <;> (rintro rfl; revert hd; decide)
    have hbased : scanBased (d :: ds ++ '\'' :: s :: b :: 'X' :: r) = none := by
      simp only [scanBased, htw.2]
      rcases hs with rfl | rfl <;> rcases hb with rfl | rfl <;> simp [intRules, scanBase, optChar]
    have hflt : scanFloat (d :: ds ++ '\'' :: s :: b :: 'X' :: r) = none := by
      cases hf : scanFloat (d :: ds ++ '\'' :: s :: b :: 'X' :: r) with
      | none => rfl
      | some x =>
        have g := (scanFloat_digits hf).2
        rw [htw.2] at g; simp at g
    have hdec := takeWhile_app (s := ds) (p := fun c => isDig c || c == '_') (by
      intro c hc; simp [hsz c (by simp [hc])]) ('\'' :: s :: b :: 'X' :: r)
    simp only [List.takeWhile_cons, List.dropWhile_cons, hdq, Bool.false_or, show ('\'' == '_') = false by decide, Bool.false_eq_true, if_false,
      List.append_nil] at hdec
    have hstep : lexTok (d :: ds ++ '\'' :: s :: b :: 'X' :: r) = some (some (.int (d :: ds)), '\'' :: s :: b :: 'X' :: r) := by
      have e1 := skip_none_of (cs := ds ++ '\'' :: s :: b :: 'X' :: r) hne2.1
      have e2 := quoted_none_of (cs := ds ++ '\'' :: s :: b :: 'X' :: r) hne2.2
      rw [← List.cons_append] at e1 e2
      simp only [lexTok, e1, e2, hflt, scanInt, hbased]
      simp only [List.cons_append, hd, if_true, hdec.1, hdec.2]
    have hlt := lexTok_shrinks _ _ _ hstep
    rw [List.cons_append] at hstep hlt ⊢
    simp only [lex, List.length_cons, lexN, if_neg hne, hstep]
    rw [lexN_of_lex _ _ (by simp) _ (Nat.le_refl _)]
    rw [lex] at hq
    rw [hq]; rfl

/-- **C89** A comment at the end of a text that has no newline is no comment: it is read as divisions. -/
theorem C89_last_comment_false (s : Str) (h : '\n' ∉ s) : lex ('/' :: '/' :: s) = (lex ('/' :: s)).map (Tok.p .divide :: ·) := by
  have hskip : scanSkip ('/' :: '/' :: s) = none := by
    have : ∀ u : Str, '\n' ∉ u → scanLine u = none := by
      intro u hu
      induction u with
      | nil => rfl
      | cons c u ih =>
        simp only [List.mem_cons, not_or] at hu
        simp only [scanLine, if_neg (Ne.symm hu.1), ih hu.2]
    simp only [scanSkip, this s h]
  have hp : scanPun ('/' :: '/' :: s) = some (.divide, '/' :: s) := by
    simp [scanPun, Pun.rules, Pun.text, List.isPrefixOf]
  have hstep : lexTok ('/' :: '/' :: s) = some (some (.p .divide), '/' :: s) := by
    simp only [lexTok, hskip, quoted_none_of (c := '/') (by decide), float_none_of (c := '/') (by decide) (by decide),
        int_none_of (c := '/') (by decide) (by decide), id_none_of (c := '/') (by decide) (by decide), hp]
    split
    · next heq => simp at heq
    · rfl
  simp [lex, lexN, hstep]

/-! ### Non-vacuity -/

/-- The longest cuts of a text with a comment, a directive, a real number, a based literal, and operators that are prefixes of
others. -/
example : ∃ ps, Munch "a<<<=12.5e3//x\n8'hfg".toList ps [] ∧
    pieceToks ps = [.id ['a'], .p .lshifta, .p .equals, .flt "12.5e3".toList, .int "8'hf".toList, .id ['g']] := by
  obtain ⟨ps, h1, h2⟩ := (C89_longest _ _).mp (show lex "a<<<=12.5e3//x\n8'hfg".toList =
    some [.id ['a'], .p .lshifta, .p .equals, .flt "12.5e3".toList, .int "8'hf".toList, .id ['g']] by decide +kernel)
  exact ⟨ps, h1, h2.symm⟩
example : lex "x = 4'sbX1;".toList = none := by decide +kernel
example : ∃ ps r, Munch "a \"b".toList ps r ∧ r ≠ [] ∧ ∀ q : Piece, q.OK → ¬ q.text <+: r := (C89_error _).mp (by decide +kernel)
example : lex "a // b".toList = some [.id ['a'], .p .divide, .p .divide, .id ['b']] := by decide +kernel

end Pyv
