import Verif.Lexer
/-
  The lexer: every step consumes text, and the literals, identifiers and operator marks of Verilog are cut as single
  tokens.
-/
namespace Pyv

theorem scanLine_lt : ∀ (cs r : Str), scanLine cs = some r → r.length < cs.length
  | [], _, h => by simp [scanLine] at h
  | c :: cs, r, h => by
    unfold scanLine at h
    split at h
    · simp at h; subst h; simp
    · have := scanLine_lt cs r h; simp; omega

theorem scanComment_lt : ∀ (cs r : Str), scanComment cs = some r → r.length < cs.length := by
  intro cs
  induction cs using scanComment.induct with
  | case1 r => intro r' h; simp [scanComment] at h; subst h; simp; omega
  | case2 c r hn ih =>
    intro r' h
    rw [scanComment] at h
    · have := ih r' h; simp; omega
    · exact hn
  | case3 => intro r' h; simp [scanComment] at h

theorem scanStr_lt : ∀ (cs s r : Str), scanStr cs = some (s, r) → r.length < cs.length := by
  intro cs
  induction cs using scanStr.induct with
  | case1 => intro s r h; simp [scanStr] at h
  | case2 r => intro s r h; simp [scanStr] at h; obtain ⟨_, rfl⟩ := h; simp
  | case3 r => intro s r h; simp [scanStr] at h
  | case4 c r hc ih =>
    intro s r' h
    rw [scanStr, if_pos hc] at h
    obtain ⟨⟨s', r''⟩, hx, he⟩ := Option.map_eq_some_iff.mp h
    simp at he; obtain ⟨_, rfl⟩ := he
    have := ih s' r'' hx; simp; omega
  | case5 c r hc => intro s r' h; rw [scanStr, if_neg hc] at h; simp at h
  | case6 => intro s r h; simp [scanStr] at h
  | case7 c r h1 h2 h3 h4 ih =>
    intro s r' h
    rw [scanStr] at h
    · obtain ⟨⟨s', r''⟩, hx, he⟩ := Option.map_eq_some_iff.mp h
      simp at he; obtain ⟨_, rfl⟩ := he
      have := ih s' r'' hx; simp; omega
    all_goals assumption

theorem dropWhile_le (p : Char → Bool) (cs : Str) : (cs.dropWhile p).length ≤ cs.length :=
  (List.dropWhile_sublist p).length_le

theorem scanExp_lt (cs s r : Str) (h : scanExp cs = some (s, r)) : r.length < cs.length := by
  cases cs with
  | nil => simp [scanExp] at h
  | cons e t =>
    simp only [scanExp] at h
    split at h
    · split at h
      · simp at h
      · simp only [Option.some.injEq, Prod.mk.injEq] at h
        obtain ⟨_, rfl⟩ := h
        have := dropWhile_le isDig (List.drop (optChar ['-', '+'] t).length t)
        simp only [List.length_drop] at this
        simp only [List.length_cons]
        omega
    · simp at h

theorem takeWhile_dropWhile_len (p : Char → Bool) (cs : Str) :
    (cs.takeWhile p).length + (cs.dropWhile p).length = cs.length := by
  conv => rhs; rw [← List.takeWhile_append_dropWhile (p := p) (l := cs)]
  rw [List.length_append]

theorem scanFloat_lt (cs s r : Str) (h : scanFloat cs = some (s, r)) : r.length < cs.length := by
  have hl := takeWhile_dropWhile_len isDig cs
  unfold scanFloat at h
  simp only at h
  split at h
  · next r' he =>
    rw [he] at hl
    have h2 := dropWhile_le isDig r'
    simp only [List.length_cons] at hl
    split at h
    · simp at h
    · split at h
      · next x r'' hx =>
        simp only [Option.some.injEq, Prod.mk.injEq] at h
        obtain ⟨_, rfl⟩ := h
        have := scanExp_lt _ _ _ hx
        omega
      · simp only [Option.some.injEq, Prod.mk.injEq] at h
        obtain ⟨_, rfl⟩ := h
        omega
  · split at h
    · simp at h
    · next hd =>
      obtain ⟨⟨s', r''⟩, hx, he⟩ := Option.map_eq_some_iff.mp h
      simp at he; obtain ⟨_, rfl⟩ := he
      have := scanExp_lt _ _ _ hx
      omega

theorem scanBase_lt (ru) (cs s r : Str) (h : scanBase ru cs = some (s, r)) : r.length < cs.length := by
  unfold scanBase at h
  simp only at h
  generalize optChar (if ru.1 = true then ['s', 'S'] else []) cs = sg at h
  split at h
  · simp at h
  · split at h
    · next b f r' he =>
      split at h
      · simp only [Option.some.injEq, Prod.mk.injEq] at h
        obtain ⟨_, rfl⟩ := h
        have h1 := dropWhile_le (fun c => decide (c ∈ ru.2.2.2)) r'
        have h2 := congrArg List.length he
        simp only [List.length_drop, List.length_cons] at h2
        omega
      · simp at h
    · simp at h

theorem scanInt_lt (cs s r : Str) (h : scanInt cs = some (s, r)) : r.length < cs.length := by
  have hl := takeWhile_dropWhile_len isDig cs
  unfold scanInt at h
  split at h
  · next x hx =>
    obtain rfl : x = (s, r) := by simpa using h
    unfold scanBased at hx
    split at hx
    · next r' he =>
      obtain ⟨⟨s', r''⟩, hf, he'⟩ := Option.map_eq_some_iff.mp hx
      simp at he'; obtain ⟨_, rfl⟩ := he'
      obtain ⟨ru, _, hb⟩ := List.exists_of_findSome?_eq_some hf
      have := scanBase_lt _ _ _ _ hb
      rw [he] at hl
      simp only [List.length_cons] at hl
      omega
    · simp at hx
  · split at h
    · next c t _ =>
      split at h
      · simp only [Option.some.injEq, Prod.mk.injEq] at h
        obtain ⟨_, rfl⟩ := h
        have := dropWhile_le (fun c => isDig c || c == '_') t
        simp only [List.length_cons]; omega
      · simp at h
    · simp at h

theorem scanId_lt (cs s r : Str) (h : scanId cs = some (s, r)) : r.length < cs.length := by
  cases cs with
  | nil => simp [scanId] at h
  | cons c t =>
    simp only [scanId] at h
    split at h
    · simp only [Option.some.injEq, Prod.mk.injEq] at h
      obtain ⟨_, rfl⟩ := h
      have := dropWhile_le isIdChar t
      simp only [List.length_cons]; omega
    · split at h
      · simp only [Option.some.injEq, Prod.mk.injEq] at h
        obtain ⟨_, rfl⟩ := h
        have := dropWhile_le (fun c => !isSp c) t
        simp only [List.length_cons]; omega
      · simp at h

theorem Pun.text_pos (k : Pun) : 0 < k.text.length := by cases k <;> decide

theorem scanPun_lt (cs : Str) (k : Pun) (r : Str) (h : scanPun cs = some (k, r)) : r.length < cs.length := by
  obtain ⟨k', _, hk⟩ := List.exists_of_findSome?_eq_some h
  split at hk
  · next hp =>
    simp only [Option.some.injEq, Prod.mk.injEq] at hk
    obtain ⟨rfl, rfl⟩ := hk
    have h1 := k'.text_pos
    have h2 := (List.isPrefixOf_iff_prefix.mp hp).length_le
    simp only [List.length_drop]; omega
  · simp at hk

theorem scanSkip_lt (cs r : Str) (h : scanSkip cs = some r) : r.length < cs.length := by
  unfold scanSkip at h
  split at h
  · have := scanLine_lt _ _ h; simp only [List.length_cons]; omega
  · have := scanLine_lt _ _ h; simp only [List.length_cons]; omega
  · have := scanComment_lt _ _ h; simp only [List.length_cons]; omega
  · simp at h

/-- Every step of the lexer consumes text. -/
theorem lexTok_shrinks (cs : Str) (o : Option Tok) (r : Str) (h : lexTok cs = some (o, r)) : r.length < cs.length := by
  unfold lexTok at h
  split at h
  · next hs => simp at h; obtain ⟨_, rfl⟩ := h; exact scanSkip_lt _ _ hs
  split at h
  · next hs =>
    simp at h; obtain ⟨_, rfl⟩ := h
    unfold scanQuoted at hs
    split at hs
    · have := scanStr_lt _ _ _ hs; simp only [List.length_cons]; omega
    · simp at hs
  split at h
  · next hs => simp at h; obtain ⟨_, rfl⟩ := h; exact scanFloat_lt _ _ _ hs
  split at h
  · next hs => simp at h; obtain ⟨_, rfl⟩ := h; exact scanInt_lt _ _ _ hs
  split at h
  · next hs => simp at h; obtain ⟨_, rfl⟩ := h; exact scanId_lt _ _ _ hs
  split at h
  · simp at h; obtain ⟨_, rfl⟩ := h; simp
  split at h
  · next hs => simp at h; obtain ⟨_, rfl⟩ := h; exact scanPun_lt _ _ _ hs
  · simp at h

/-- Big-step lexing. -/
inductive Lx : Str → List Tok → Prop
  | nil : Lx [] []
  | sp {c cs ts} : c = ' ' ∨ c = '\t' → Lx cs ts → Lx (c :: cs) ts
  | skip {c cs r ts} : ¬ (c = ' ' ∨ c = '\t') → lexTok (c :: cs) = some (none, r) → Lx r ts → Lx (c :: cs) ts
  | tok {c cs r t ts} : ¬ (c = ' ' ∨ c = '\t') → lexTok (c :: cs) = some (some t, r) → Lx r ts → Lx (c :: cs) (t :: ts)

theorem Lx.toN {cs : Str} {ts : List Tok} (h : Lx cs ts) : ∀ n, cs.length ≤ n → lexN n cs = some ts := by
  induction h with
  | nil => intro n _; cases n <;> rfl
  | sp hc _ ih =>
    intro n hn
    cases n with
    | zero => simp at hn
    | succ n => simp only [lexN, if_pos hc]; exact ih n (by simp at hn; omega)
  | skip hc ht _ ih =>
    intro n hn
    cases n with
    | zero => simp at hn
    | succ n =>
      have := lexTok_shrinks _ _ _ ht
      simp only [lexN, if_neg hc, ht]; exact ih n (by simp at hn this; omega)
  | tok hc ht _ ih =>
    intro n hn
    cases n with
    | zero => simp at hn
    | succ n =>
      have := lexTok_shrinks _ _ _ ht
      simp only [lexN, if_neg hc, ht, ih n (by simp at hn this; omega), Option.map_some]

theorem Lx.toLex {cs : Str} {ts : List Tok} (h : Lx cs ts) : lex cs = some ts := h.toN _ (Nat.le_refl _)

/-- The fuel of `lex` is enough: more of it gives the same tokens. -/
theorem lexN_of_lex : ∀ (n : Nat) (cs : Str), cs.length ≤ n → ∀ m, cs.length ≤ m → lexN n cs = lexN m cs
  | 0, [], _, m, _ => by cases m <;> rfl
  | 0, _ :: _, h, _, _ => by simp at h
  | n + 1, [], _, m, _ => by cases m <;> rfl
  | n + 1, c :: cs, h, 0, hm => by simp at hm
  | n + 1, c :: cs, h, m + 1, hm => by
    simp only [List.length_cons, Nat.add_le_add_iff_right] at h hm
    simp only [lexN]
    split
    · exact lexN_of_lex n cs h m hm
    · split
      · rfl
      · next r ht =>
        have := lexTok_shrinks _ _ _ ht
        simp only [List.length_cons] at this
        exact lexN_of_lex n r (by omega) m (by omega)
      · next t r ht =>
        have := lexTok_shrinks _ _ _ ht
        simp only [List.length_cons] at this
        rw [lexN_of_lex n r (by omega) m (by omega)]

end Pyv
