import Verif.Props.LexLit
/-
  Operators and punctuation are lexed as the tokens they are, unless the next character makes a longer one.
-/
namespace Pyv

/-- The characters that may not follow an operator: with them another token begins at the same place. -/
def Pun.cont : Pun → List Char
  | .and => ['&'] | .or => ['|'] | .not => ['&', '|', '^'] | .lnot => ['='] | .lt => ['<', '='] | .gt => ['>', '=']
  | .lshift => ['<'] | .rshift => ['>'] | .eq => ['='] | .ne => ['='] | .equals => ['='] | .plus => [':']
  | .minus => [':'] | .times => ['*'] | .divide => ['/', '*']
  | .dot => "0123456789".toList
  | _ => []

theorem prefix_app (a : Str) : ∀ (b r : Str), a.isPrefixOf (b ++ r) = true →
    a.isPrefixOf b = true ∨ (b.isPrefixOf a = true ∧ ∃ c, (a.drop b.length).head? = some c ∧ r.head? = some c) := by
  induction a with
  | nil => intro b r _; left; cases b <;> rfl
  | cons x a ih =>
    intro b r h
    cases b with
    | nil =>
      cases r with
      | nil => simp [List.isPrefixOf] at h
      | cons y r =>
        simp [List.isPrefixOf] at h
        right
        refine ⟨by simp [List.isPrefixOf], x, by simp, ?_⟩
        simp [h.1]
    | cons y b =>
      simp only [List.cons_append, List.isPrefixOf, Bool.and_eq_true, beq_iff_eq] at h
      rcases ih b r h.2 with h' | ⟨h1, c, h2, h3⟩
      · left; simp [List.isPrefixOf, h.1, h']
      · right
        refine ⟨?_, c, ?_, h3⟩
        · simp [List.isPrefixOf, h.1, h1]
        · simpa using h2

theorem prefix_self_app (b r : Str) : b.isPrefixOf (b ++ r) = true := by
  rw [List.isPrefixOf_iff_prefix]; exact List.prefix_append b r

/-- The order of the rules: an earlier rule is never a prefix of a later one's text, and it is an extension of it only
by a character of `cont`. -/
theorem rules_order : ∀ k : Pun, ∃ l1 l2, Pun.rules = l1 ++ k :: l2 ∧
    ∀ k' ∈ l1, k'.text.isPrefixOf k.text = false ∧
      (k.text.isPrefixOf k'.text = true → ∃ c ∈ k.cont, (k'.text.drop k.text.length).head? = some c) := by
  intro k
  refine ⟨Pun.rules.takeWhile (· ≠ k), (Pun.rules.dropWhile (· ≠ k)).drop 1, ?_, ?_⟩
  · revert k; intro k; cases k <;> decide
  · revert k; intro k; cases k <;> decide +kernel

theorem scanPun_text (k : Pun) (r : Str) (h : ∀ c, r.head? = some c → c ∉ k.cont) :
    scanPun (k.text ++ r) = some (k, r) := by
  obtain ⟨l1, l2, hr, hl⟩ := rules_order k
  unfold scanPun
  rw [hr]
  refine findSome_at _ l1 k l2 _ ?_ ?_
  · intro k' hk'
    obtain ⟨h1, h2⟩ := hl k' hk'
    rw [if_neg]
    intro hp
    rcases prefix_app _ _ _ hp with h' | ⟨h', c, hc, hrc⟩
    · rw [h1] at h'; simp at h'
    · obtain ⟨c', hc', he⟩ := h2 h'
      rw [hc] at he
      obtain rfl : c = c' := by simpa using he
      exact h c hrc hc'
  · rw [if_pos (prefix_self_app _ _)]
    simp

theorem lexTok_scanPun (c : Char) (t : Str) (k : Pun) (r : Str) (h0 : scanSkip (c :: t) = none)
    (h1 : c ≠ '"') (h2 : scanFloat (c :: t) = none) (h3 : isDig c = false) (h4 : c ≠ '\'') (h5 : isIdStart c = false)
    (h6 : c ≠ '\\') (h7 : c ≠ '\n') (h : scanPun (c :: t) = some (k, r)) : lexTok (c :: t) = some (some (.p k), r) := by
  have hid : scanId (c :: t) = none := by simp [scanId, h5, h6]
  have hnl : ∀ r', c :: t ≠ '\n' :: r' := by intro r' he; injection he; contradiction
  unfold lexTok
  simp only [h0, scanQuoted_none (c :: t) (by simp [h1]), h2, scanInt_none c t h3 h4, hid, h]

theorem scanSkip_div (r : Str) (h : ∀ c, r.head? = some c → c ∉ ['/', '*']) : scanSkip ('/' :: r) = none := by
  cases r with
  | nil => rfl
  | cons c r =>
    have hc := h c rfl
    have h1 : c ≠ '/' := by rintro rfl; simp at hc
    have h2 : c ≠ '*' := by rintro rfl; simp at hc
    rw [scanSkip]
    · intro r' h3; injection h3 with h4 h5; revert h4; decide
    · intro r' h3; injection h3 with h4 h5; injection h5 with h6; exact h1 h6
    · intro r' h3; injection h3 with h4 h5; injection h5 with h6; exact h2 h6

/-- A mark is lexed as its token. -/
theorem lexTok_pun (k : Pun) (r : Str) (h : ∀ c, r.head? = some c → c ∉ k.cont) :
    lexTok (k.text ++ r) = some (some (.p k), r) := by
  have hs := scanPun_text k r h
  by_cases hd : k = .divide
  · subst hd
    refine lexTok_scanPun '/' r _ _ ?_ (by decide) (scanFloat_none' _ _ (by decide) (by decide)) (by decide) (by decide)
      (by decide) (by decide) (by decide) hs
    exact scanSkip_div r (fun c hc => h c hc)
  by_cases hd' : k = .dot
  · subst hd'
    refine lexTok_scanPun '.' r _ _ (scanSkip_none _ _ (by decide) (by decide)) (by decide) ?_ (by decide) (by decide)
      (by decide) (by decide) (by decide) hs
    have hr : ∀ c, r.head? = some c → isDig c = false := by
      intro c hc
      have := h c hc
      by_contra hn
      have hn' : isDig c = true := by simpa using hn
      apply this
      simp only [isDig, Bool.and_eq_true, decide_eq_true_eq, Char.le_def, UInt32.le_iff_toNat_le] at hn'
      have e0 : ('0' : Char).val.toNat = 48 := rfl
      have e9 : ('9' : Char).val.toNat = 57 := rfl
      have : c.val.toNat = 48 ∨ c.val.toNat = 49 ∨ c.val.toNat = 50 ∨ c.val.toNat = 51 ∨ c.val.toNat = 52 ∨
          c.val.toNat = 53 ∨ c.val.toNat = 54 ∨ c.val.toNat = 55 ∨ c.val.toNat = 56 ∨ c.val.toNat = 57 := by omega
      have inj : ∀ d : Char, c.val.toNat = d.val.toNat → c = d := by
        intro d hd; exact Char.ext (UInt32.toNat_inj.mp hd)
      rcases this with h | h | h | h | h | h | h | h | h | h
      · rw [inj '0' h]; decide
      · rw [inj '1' h]; decide
      · rw [inj '2' h]; decide
      · rw [inj '3' h]; decide
      · rw [inj '4' h]; decide
      · rw [inj '5' h]; decide
      · rw [inj '6' h]; decide
      · rw [inj '7' h]; decide
      · rw [inj '8' h]; decide
      · rw [inj '9' h]; decide
    have ht := takeWhile_stop isDig [] r (by simp) hr
    simp only [List.nil_append] at ht
    unfold scanFloat
    have e : isDig '.' = false := rfl
    simp [e, ht.1]
  · obtain ⟨c, t, he, hc⟩ : ∃ c t, k.text = c :: t ∧ c ≠ '`' ∧ c ≠ '/' ∧ c ≠ '"' ∧ isDig c = false ∧ c ≠ '.' ∧ c ≠ '\'' ∧
        isIdStart c = false ∧ c ≠ '\\' ∧ c ≠ '\n' := by
      cases k <;> first | exact absurd rfl hd | exact absurd rfl hd' | exact ⟨_, _, rfl, by decide⟩
    rw [he] at hs ⊢
    obtain ⟨h1, h2, h3, h4, h5, h6, h7, h8, h9⟩ := hc
    exact lexTok_scanPun c _ _ _ (scanSkip_none _ _ h1 h2) h3 (scanFloat_none' _ _ h4 h5) h4 h6 h7 h8 h9 hs

theorem Pun.text_head (k : Pun) : ∃ c t, k.text = c :: t ∧ ¬ (c = ' ' ∨ c = '\t') := by
  cases k <;> exact ⟨_, _, rfl, by decide⟩

theorem Lx.pun (k : Pun) {r : Str} {ts : List Tok} (h : ∀ c, r.head? = some c → c ∉ k.cont) (hr : Lx r ts) :
    Lx (k.text ++ r) (.p k :: ts) := by
  obtain ⟨c, t, he, hc⟩ := k.text_head
  have := lexTok_pun k r h
  rw [he] at this ⊢
  exact Lx.tok hc this hr

end Pyv
