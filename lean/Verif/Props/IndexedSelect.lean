import Verif.Props.CodegenProps
/-
  C64: indexed part selects; and the character classes of the lexer.
-/
namespace Pyv

/-- How the parser reads `v[b +: w]` and `v[b -: w]`, for every indexable `v` and all expressions `b` and `w`: as part
selects from `b` to `b + w` and from `b` to `b - w`. -/
theorem indexed_reads (v b w : Ex) (hv : v.isBase = true) (hvw : v.WF) (hb : b.WF) (hw : w.WF) (up : Bool) :
    ParsesTo (v.code ++ '[' :: (b.code ++ (if up then " +: ".toList else " -: ".toList) ++ w.code ++ [']']))
      (.psel v.erase b.erase (.bin (if up then .plus else .minus) b.erase w.erase)) := by
  have hvb : v.wrapped = false := by cases v <;> first | rfl | simp [Ex.isBase] at hv
  let k : Pun := if up then .pluscolon else .minuscolon
  have hlex : LexP (v.code ++ '[' :: (b.code ++ (if up then " +: ".toList else " -: ".toList) ++ w.code ++ [']']))
      (v.toks ++ .p .lbracket :: (b.toks ++ .p k :: (w.toks ++ [.p .rbracket]))) := by
    intro r ts hr hl
    have h1 := WF.lexP_code hw _ _ (Delim.cons _ (by decide)) (Lx.ch .rbracket ']' rfl rfl hl)
    have h2 : Lx ((if up then " +: ".toList else " -: ".toList) ++ (w.code ++ ']' :: r)) (.p k :: (w.toks ++ .p .rbracket :: ts)) := by
      cases up with
      | true =>
        have : Lx (spc true ++ (Pun.text .pluscolon ++ (spc true ++ (w.code ++ ']' :: r)))) (.p .pluscolon :: (w.toks ++ .p .rbracket :: ts)) :=
          Lx.spc true (Lx.pun .pluscolon (by intro c _; exact List.not_mem_nil) (Lx.spc true h1))
        have e : spc true ++ (Pun.text .pluscolon ++ (spc true ++ (w.code ++ ']' :: r))) =
          (if true then " +: ".toList else " -: ".toList) ++ (w.code ++ ']' :: r) := by simp [spc, Pun.text]
        rw [e] at this
        simpa only [k, if_true] using this
      | false =>
        have : Lx (spc true ++ (Pun.text .minuscolon ++ (spc true ++ (w.code ++ ']' :: r)))) (.p .minuscolon :: (w.toks ++ .p .rbracket :: ts)) :=
          Lx.spc true (Lx.pun .minuscolon (by intro c _; exact List.not_mem_nil) (Lx.spc true h1))
        have e : spc true ++ (Pun.text .minuscolon ++ (spc true ++ (w.code ++ ']' :: r))) =
          (if false then " +: ".toList else " -: ".toList) ++ (w.code ++ ']' :: r) := by simp [spc, Pun.text]
        rw [e] at this
        simpa only [k, if_false, Bool.false_eq_true] using this
    have hd : Delim ((if up then " +: ".toList else " -: ".toList) ++ (w.code ++ ']' :: r)) := by
      cases up <;> exact Delim.cons _ (by decide)
    have h3 := WF.lexP_code hvw _ _ (Delim.cons _ (by decide)) (Lx.ch .lbracket '[' rfl rfl (WF.lexP_code hb _ _ hd h2))
    simpa only [List.append_assoc, List.cons_append, List.nil_append] using h3
  refine ⟨_, hlex.toLex, ?_⟩
  have hvt : v.toks = v.itoks := by unfold Ex.toks Ex.wrapT; rw [hvb]; rfl
  rw [hvt]
  obtain ⟨s, hs, hst⟩ := (parse_main v hvw).2.1 hv [] (.p .lbracket :: (b.toks ++ .p k :: (w.toks ++ [.p .rbracket]))) rfl
  refine St.parse (St.trans hst (.head (base_shift s _ hs [] _) ?_))
  have hne : ∀ a, s ≠ .ex a := by rintro a rfl; simp [Sym.base?] at hs
  have hfk : ∀ ts, Follow (.p k :: ts) := by intro ts; cases up <;> simp [Follow, k]
  refine St.trans (WF.outer hb _ _ rfl (hfk _)) ?_
  refine .head (s1 := .tok (.p k) :: .ex b.erase :: .tok (.p .lbracket) :: s :: []) (t1 := w.toks ++ [.p .rbracket]) ?_ ?_
  · cases up <;> cases s <;> rfl
  refine St.trans (WF.outer hw _ _ ?_ (by simp [Follow])) ?_
  · cases up <;> rfl
  refine .head (s1 := .tok (.p .rbracket) :: .ex w.erase :: .tok (.p k) :: .ex b.erase :: .tok (.p .lbracket) :: s :: []) (t1 := []) ?_
    (.head (s1 := .ex (.psel v.erase b.erase (.bin (if up then .plus else .minus) b.erase w.erase)) :: []) (t1 := []) ?_ .refl)
  · cases up <;> rfl
  · cases up <;> simp [step, stepBracket, hs, k]

/-- **C64** is false: Verilog's `v[b +: w]` (`v[b -: w]`) selects `w` bits, but for every choice of expressions the parser
builds a part select with the bounds `b` and `b + w` (`b - w`), which is one bit wider under every valuation that reads
`+` and `-` as usual. -/
theorem C64_indexed_false (v b w : Ex) (hv : v.isBase = true) (hvw : v.WF) (hb : b.WF) (hw : w.WF) (up : Bool) :
    ∃ m l, ParsesTo (v.code ++ '[' :: (b.code ++ (if up then " +: ".toList else " -: ".toList) ++ w.code ++ [']']))
        (.psel v.erase m l) ∧
      ∀ val : Ex → Int, (∀ x y, val (.bin .plus x y) = val x + val y) → (∀ x y, val (.bin .minus x y) = val x - val y) →
        0 ≤ val w.erase → ((val m - val l).natAbs + 1 : Int) = val w.erase + 1 := by
  refine ⟨_, _, indexed_reads v b w hv hvw hb hw up, fun val hp hm h0 => ?_⟩
  cases up
  · simp only [Bool.false_eq_true, if_false, hm]; omega
  · simp only [if_true, hp]; omega

/-- `x[i +: 4]` reads as `x[i:i+4]`. -/
example : ParsesTo "x[i +: 4]".toList (.psel (.ident [] "x".toList) (.ident [] "i".toList)
    (.bin .plus (.ident [] "i".toList) (.intc "4".toList))) := by
  have hn : ∀ c, c ∈ "xi".toList → IsName [c] := by
    intro c hc
    refine plain1 c ?_ ?_ <;> (revert c; decide +kernel)
  have hwi : ∀ c, c ∈ "xi".toList → (Ex.ident [] [c]).WF := by
    intro c hc; simp only [Ex.WF]; intro l hl; simp at hl; subst hl; exact hn c hc
  have := indexed_reads (.ident [] "x".toList) (.ident [] "i".toList) (.intc "4".toList) rfl (hwi _ (by decide)) (hwi _ (by decide))
    (by simp only [Ex.WF]; exact .dec '4' [] rfl (by simp)) true
  have e1 : (Ex.ident [] "x".toList).code ++ '[' :: ((Ex.ident [] "i".toList).code ++ (if true then " +: ".toList else " -: ".toList) ++
    (Ex.intc "4".toList).code ++ [']']) = "x[i +: 4]".toList := by decide +kernel
  rw [e1] at this
  simpa [Ex.erase] using this

/-- The character classes in which the names and literals of `LexSpec` are stated, in terms of Lean's own character
predicates: an identifier begins with a letter or `_` and goes on with letters, digits, `_` and `$`. -/
theorem C41_char_classes (c : Char) :
    (isDig c = true ↔ c.isDigit = true) ∧ (isIdStart c = true ↔ c.isAlpha = true ∨ c = '_') ∧
    (isIdChar c = true ↔ c.isAlphanum = true ∨ c = '_' ∨ c = '$') ∧
    (isEscChar c = true ↔ c.isAlpha = true ∨ c ∈ ['\\', '?', '\'', '"', '0', '1', '2', '3', '4', '5', '6', '7']) := by
  have hd : isDig c = true ↔ c.isDigit = true := by
    simp [isDig, Char.isDigit, Char.le_def]
  have ha : isLet c = true ↔ c.isAlpha = true := by
    simp [isLet, Char.isAlpha, Char.isUpper, Char.isLower, Char.le_def]
    tauto
  refine ⟨hd, ?_, ?_, ?_⟩
  · simp only [isIdStart, Bool.or_eq_true, ha, beq_iff_eq]
  · simp only [isIdChar, Bool.or_eq_true, ha, hd, beq_iff_eq, Char.isAlphanum]; tauto
  · have h07 : (decide ('0' ≤ c) && decide (c ≤ '7')) = true ↔ c ∈ ['0', '1', '2', '3', '4', '5', '6', '7'] := by
      constructor
      · intro h
        simp only [Bool.and_eq_true, decide_eq_true_eq, Char.le_def, UInt32.le_iff_toNat_le] at h
        have h1 : c = Char.ofNat c.toNat := by simp
        have h2 : 48 ≤ c.toNat ∧ c.toNat ≤ 55 := h
        have h3 : c.toNat = 48 ∨ c.toNat = 49 ∨ c.toNat = 50 ∨ c.toNat = 51 ∨ c.toNat = 52 ∨ c.toNat = 53 ∨ c.toNat = 54 ∨ c.toNat = 55 := by omega
        rcases h3 with h | h | h | h | h | h | h | h <;> (rw [h] at h1; rw [h1]; decide)
      · intro h
        simp only [List.mem_cons, List.not_mem_nil, or_false] at h
        rcases h with rfl | rfl | rfl | rfl | rfl | rfl | rfl | rfl <;> decide
    simp only [isEscChar, Bool.or_eq_true, ha, beq_iff_eq, h07, List.mem_cons, List.not_mem_nil, or_false, or_assoc]

end Pyv
