import Verif.Props.StmtLex
/-
  Every printed statement is cut into its tokens.
-/
namespace Pyv

theorem NoBreak.lit (s : Str) (h : s.all (fun c => !isBreak c || c == '\n') = true) : NoBreak s := by
  intro c hc hb
  have := List.all_eq_true.mp h c hc
  simpa [hb] using this

theorem Lx.ws (w : Str) (hw : ∀ c ∈ w, c = ' ' ∨ c = '\n') {r : Str} {ts : List Tok} (h : Lx r ts) : Lx (w ++ r) ts := by
  induction w with
  | nil => exact h
  | cons c w ih =>
    have hi := ih (fun c hc => hw c (by simp [hc]))
    rcases hw c (by simp) with rfl | rfl
    · exact Lx.sp1 hi
    · exact Lx.nl hi

theorem Delim.ws (w : Str) (hw : ∀ c ∈ w, c = ' ' ∨ c = '\n') {r : Str} (h : Delim r) : Delim (w ++ r) := by
  cases w with
  | nil => exact h
  | cons c w => rcases hw c (by simp) with rfl | rfl <;> exact Delim.cons _ (by decide)

theorem toks_ne_nil {s : Stmt} (h : s.WF) : s.toks ≠ [] := by
  cases s <;> first | exact h.elim | simp [Stmt.toks]

theorem Prints.code_ne_nil {s : Stmt} (hw : s.WF) (h : Prints s) : s.code ≠ [] := by
  obtain ⟨_, raw, hre, hl⟩ := h
  intro e
  rw [e] at hre
  cases hre
  have := hl [] [] (by intro c hc; simp at hc) .nil
  rw [List.append_nil, List.append_nil] at this
  cases ht : s.toks with
  | nil => exact toks_ne_nil hw ht
  | cons t ts => rw [ht] at this; cases this

/-- An indented text on a line of its own. -/
theorem line_re {raw s : Str} (h : Reindent raw s) (hb : NoBreak s) :
    Reindent ('\n' :: raw) ('\n' :: indentN 2 s) ∧ NoBreak ('\n' :: indentN 2 s) := by
  have hr := indentN_re 2 s hb
  refine ⟨?_, ?_⟩
  · obtain ⟨n, t, e, ht⟩ := hr
    rw [e]
    exact .nl n (h.trans ht)
  · have := hr.noBreak hb
    intro c hc hbr
    rcases List.mem_cons.mp hc with rfl | hc
    · rfl
    · exact this c hc hbr

theorem linesCode_cons (s : Str) (ss : List Str) : linesCode (s :: ss) = '\n' :: s ++ linesCode ss := rfl

theorem lines_print (ss : List Stmt) (h : ∀ s ∈ ss, Prints s) :
    NoBreak (linesCode ((Stmt.codes ss).map (indentN 2))) ∧
    ∃ raw, Reindent raw (linesCode ((Stmt.codes ss).map (indentN 2))) ∧
      ∀ r ts, r.head? = some '\n' → Lx r ts → (raw ++ r).head? = some '\n' ∧ Lx (raw ++ r) (Stmt.toksL ss ++ ts) := by
  induction ss with
  | nil => exact ⟨fun c hc => by simp [linesCode, Stmt.codes] at hc, [], .nil, fun r ts hr hl => ⟨hr, hl⟩⟩
  | cons s ss ih =>
    obtain ⟨h1, raw1, h2, h3⟩ := h s (by simp)
    obtain ⟨i1, raw2, i2, i3⟩ := ih (fun s hs => h s (by simp [hs]))
    obtain ⟨l1, l2⟩ := line_re h2 h1
    simp only [Stmt.codes, List.map_cons, linesCode_cons]
    refine ⟨l2.append i1, '\n' :: raw1 ++ raw2, l1.append i2, fun r ts hr hl => ⟨rfl, ?_⟩⟩
    obtain ⟨j1, j2⟩ := i3 r ts hr hl
    simp only [List.cons_append, List.append_assoc, Stmt.toksL]
    refine Lx.nl (h3 _ _ ?_ j2)
    intro c hc
    rw [j1] at hc
    simp only [Option.some.injEq] at hc
    subst hc; decide

theorem items_print (conds : List (Option (List Ex))) (bodies : List Stmt) (hc : ∀ c ∈ conds, CondsOK c)
    (h : ∀ s ∈ bodies, Prints s) :
    NoBreak (linesCode ((Stmt.items conds bodies).map (indentN 2))) ∧
    ∃ raw, Reindent raw (linesCode ((Stmt.items conds bodies).map (indentN 2))) ∧
      ∀ r ts, r.head? = some '\n' → Lx r ts → (raw ++ r).head? = some '\n' ∧ Lx (raw ++ r) (Stmt.itemToks conds bodies ++ ts) := by
  induction conds generalizing bodies with
  | nil =>
    have e1 : Stmt.items [] bodies = [] := by cases bodies <;> simp [Stmt.items]
    have e2 : Stmt.itemToks [] bodies = [] := by cases bodies <;> simp [Stmt.itemToks]
    rw [e1, e2]
    exact ⟨fun c hc => by simp [linesCode] at hc, [], .nil, fun r ts hr hl => ⟨hr, hl⟩⟩
  | cons c conds ih =>
    cases bodies with
    | nil => exact ⟨fun c hc => by simp [linesCode, Stmt.items] at hc, [], .nil, fun r ts hr hl => ⟨hr, hl⟩⟩
    | cons s bodies =>
      obtain ⟨h1, raw1, h2, h3⟩ := h s (by simp)
      obtain ⟨i1, raw2, i2, i3⟩ := ih bodies (fun c hc' => hc c (by simp [hc'])) (fun s hs => h s (by simp [hs]))
      have hcs := hc c (by simp)
      have b1 : NoBreak (itemCode c s.code) := by
        unfold itemCode
        exact ((conds_noBreak c hcs).append (NoBreak.lit _ (by decide))).append h1
      have b2 : Reindent (caseCondCode c ++ ": ".toList ++ raw1) (itemCode c s.code) := by
        unfold itemCode
        exact (Reindent.refl _).append h2
      obtain ⟨l1, l2⟩ := line_re b2 b1
      simp only [Stmt.items, List.map_cons, linesCode_cons]
      refine ⟨l2.append i1, '\n' :: (caseCondCode c ++ ": ".toList ++ raw1) ++ raw2, l1.append i2, fun r ts hr hl => ⟨rfl, ?_⟩⟩
      obtain ⟨j1, j2⟩ := i3 r ts hr hl
      rw [show ": ".toList = [':', ' '] from rfl]
      simp only [List.cons_append, List.append_assoc, List.nil_append, Stmt.itemToks]
      refine Lx.nl (conds_lexP c hcs _ _ (Delim.cons _ (by decide)) (Lx.ch .colon ':' rfl rfl (Lx.sp1 (h3 _ _ ?_ j2))))
      intro c hc
      rw [j1] at hc
      simp only [Option.some.injEq] at hc
      subst hc; decide

/-- Every statement is printed as a text that has its tokens. -/
theorem stmt_print (s : Stmt) : s.WF → Prints s := by
  have hasg : ∀ (nb : Bool) (l r : Ex), l.Printable → r.Printable → NoBreak (assignCode nb l r) ∧
      ∃ raw, Reindent raw (assignCode nb l r) ∧ LexP raw (l.itoks ++ .p (if nb then .le else .equals) :: (r.itoks ++ [.p .semicolon])) := by
    intro nb l r hl hr
    have hb := asg_noBreak nb hl hr
    have hre := indentAssign_re _ hb
    exact ⟨hre.noBreak hb, _, hre, asg_lexP nb hl.1 hr.1⟩
  induction s using Stmt.ind with
  | skip => intro h; exact h.elim
  | nb l r => intro h; simp only [Stmt.WF] at h; exact hasg true l r h.1 h.2.2
  | ba l r => intro h; simp only [Stmt.WF] at h; exact hasg false l r h.1 h.2.2
  | ifs c t f iht ihf =>
    intro h
    simp only [Stmt.WF] at h
    obtain ⟨hc, ht, hf⟩ := h
    obtain ⟨t1, rawt, t2, t3⟩ := iht ht
    have e1 : "if(".toList = "if".toList ++ ['('] := rfl
    have e2 : ") ".toList = [')', ' '] := rfl
    have hws1 : ∀ (p : Prop) [Decidable p] (x : Str), (∀ c ∈ x, c = ' ' ∨ c = '\n') → ∀ c ∈ (if p then [] else x), c = ' ' ∨ c = '\n' := by
      intro p _ x hx c hc; split at hc; simp at hc; exact hx c hc
    have hwsA : ∀ c ∈ (if t.code.getLast? = some ' ' ∨ t.code.getLast? = some '\n' then ([] : Str) else [' ']), c = ' ' ∨ c = '\n' :=
      hws1 _ _ (by simp)
    have wsb : ∀ w : Str, (∀ c ∈ w, c = ' ' ∨ c = '\n') → NoBreak w := by
      intro w hw c hc hb; rcases hw c hc with rfl | rfl; revert hb; decide; rfl
    rcases hf with ⟨rfl, _⟩ | ⟨hf, ho, _⟩
    · have hcode : (Stmt.ifs c t .skip).code = "if(".toList ++ c.rcode ++ ") ".toList ++ t.code ++
          (if t.code.getLast? = some ' ' ∨ t.code.getLast? = some '\n' then [] else [' ']) := by
        simp only [Stmt.code, ifCode]
        simp
      refine ⟨?_, "if(".toList ++ c.rcode ++ ") ".toList ++ rawt ++
          (if t.code.getLast? = some ' ' ∨ t.code.getLast? = some '\n' then [] else [' ']), ?_, ?_⟩
      · rw [hcode]
        exact NoBreak.append (NoBreak.append (NoBreak.append (NoBreak.append (NoBreak.lit _ (by decide)) hc.noBreak) (NoBreak.lit _ (by decide))) t1) (wsb _ hwsA)
      · rw [hcode]
        exact ((((Reindent.refl _).append (Reindent.refl _)).append (Reindent.refl _)).append t2).append (Reindent.refl _)
      · intro r ts hr hl
        rw [e1, e2]
        simp only [List.append_assoc, List.cons_append, List.nil_append, Stmt.toks, Stmt.isNull, if_true, List.append_nil]
        refine Lx.kw (by decide) (by simp; decide) (Lx.ch .lparen '(' rfl rfl (Printable.lexP hc.1 (')' :: _) _ (Delim.cons _ (by decide))
          (Lx.ch .rparen ')' rfl rfl (Lx.sp1 (t3 _ _ (Delim.ws _ hwsA hr) (Lx.ws _ hwsA hl))))))
    · obtain ⟨f1, rawf, f2, f3⟩ := ihf hf
      have hne : f.code ≠ [] := Prints.code_ne_nil hf ⟨f1, rawf, f2, f3⟩
      have hlast : ¬ (t.code.getLast? = some ' ' ∨ t.code.getLast? = some '\n') := by
        have := code_last t ht ho
        rcases this with h | h | h <;> (rw [h]; decide)
      have hB : ∀ c ∈ (if '\n' ∉ t.code ∧ f.code ≠ [] then (['\n'] : Str) else []), c = ' ' ∨ c = '\n' := by
        intro c hc; split at hc; simp at hc; exact .inr hc; simp at hc
      have hcode : (Stmt.ifs c t f).code = "if(".toList ++ c.rcode ++ ") ".toList ++ t.code ++ [' '] ++
          (if '\n' ∉ t.code ∧ f.code ≠ [] then ['\n'] else []) ++ ("else ".toList ++ f.code) := by
        simp only [Stmt.code, ifCode]
        rw [if_neg hlast, if_pos hne]
      refine ⟨?_, "if(".toList ++ c.rcode ++ ") ".toList ++ rawt ++ [' '] ++
          (if '\n' ∉ t.code ∧ f.code ≠ [] then ['\n'] else []) ++ ("else ".toList ++ rawf), ?_, ?_⟩
      · rw [hcode]
        exact NoBreak.append (NoBreak.append (NoBreak.append (NoBreak.append (NoBreak.append (NoBreak.append (NoBreak.lit _ (by decide)) hc.noBreak) (NoBreak.lit _ (by decide))) t1) (NoBreak.lit _ (by decide))) (wsb _ hB)) (NoBreak.append (NoBreak.lit _ (by decide)) f1)
      · rw [hcode]
        exact (((((Reindent.refl _).append t2).append (Reindent.refl _)).append (Reindent.refl _))).append ((Reindent.refl _).append f2)
      · intro r ts hr hl
        rw [e1, e2, show "else ".toList = "else".toList ++ [' '] from rfl]
        simp only [List.append_assoc, List.cons_append, List.nil_append, Stmt.toks, WF.notSkip hf, Bool.false_eq_true, if_false]
        have helse : Lx ("else".toList ++ ' ' :: (rawf ++ r)) (.kw "else".toList :: (f.toks ++ ts)) :=
          Lx.kw (by decide) (by simp; decide) (Lx.sp1 (f3 r ts hr hl))
        refine Lx.kw (by decide) (by simp; decide) (Lx.ch .lparen '(' rfl rfl (Printable.lexP hc.1 (')' :: _) _ (Delim.cons _ (by decide))
          (Lx.ch .rparen ')' rfl rfl (Lx.sp1 (t3 _ _ (Delim.cons _ (by decide)) (Lx.sp1 (Lx.ws _ hB helse)))))))
  | cases k c cs ss ih =>
    intro h
    simp only [Stmt.WF, swfs_iff] at h
    obtain ⟨hk, hc, _, _, hcs, hss⟩ := h
    obtain ⟨i1, raw, i2, i3⟩ := items_print cs ss hcs (fun s hs => ih s hs (hss s hs))
    have hw : ∃ w, k.word = some w ∧ w ∈ reservedWords ∧ NoBreak w := by
      rcases hk with rfl | rfl
      · exact ⟨_, rfl, by decide, NoBreak.lit _ (by decide)⟩
      · exact ⟨_, rfl, by decide, NoBreak.lit _ (by decide)⟩
    obtain ⟨w, hw, hwr, hwb⟩ := hw
    have hcode : (Stmt.cases k c cs ss).code = w ++ ['('] ++ c.rcode ++ [')'] ++ linesCode ((Stmt.items cs ss).map (indentN 2)) ++ "\nendcase".toList := by
      simp only [Stmt.code, hw]
      rfl
    refine ⟨?_, w ++ ['('] ++ c.rcode ++ [')'] ++ raw ++ "\nendcase".toList, ?_, ?_⟩
    · rw [hcode]
      exact ((((hwb.append (NoBreak.lit _ (by decide))).append hc.noBreak).append (NoBreak.lit _ (by decide))).append i1).append (NoBreak.lit _ (by decide))
    · rw [hcode]
      exact ((Reindent.refl _).append i2).append (Reindent.refl _)
    · intro r ts hr hl
      rw [show "\nendcase".toList = '\n' :: "endcase".toList from rfl]
      simp only [List.append_assoc, List.cons_append, List.nil_append, Stmt.toks, hw, Option.getD_some]
      have hend : Lx ('\n' :: ("endcase".toList ++ r)) (.kw "endcase".toList :: ts) := Lx.nl (Lx.kw (by decide) hr.id hl)
      exact Lx.kw hwr (by simp; decide) (Lx.ch .lparen '(' rfl rfl (Printable.lexP hc.1 (')' :: _) _ (Delim.cons _ (by decide))
        (Lx.ch .rparen ')' rfl rfl (i3 _ _ rfl hend).2)))
  | block n ss ih =>
    intro h
    simp only [Stmt.WF, swfs_iff] at h
    obtain ⟨i1, raw, i2, i3⟩ := lines_print ss (fun s hs => ih s hs (h.2 s hs))
    have hend : ∀ r ts, Delim r → Lx r ts → Lx ('\n' :: ("end".toList ++ r)) (.kw "end".toList :: ts) :=
      fun r ts hr hl => Lx.nl (Lx.kw (by decide) hr.id hl)
    cases n with
    | none =>
      have hcode : (Stmt.block none ss).code = "begin".toList ++ linesCode ((Stmt.codes ss).map (indentN 2)) ++ "\nend".toList := by
        simp only [Stmt.code]
        unfold blockCode
        rw [List.append_nil]
      refine ⟨?_, "begin".toList ++ raw ++ "\nend".toList, ?_, ?_⟩
      · rw [hcode]
        exact ((NoBreak.lit _ (by decide)).append i1).append (NoBreak.lit _ (by decide))
      · rw [hcode]
        exact ((Reindent.refl _).append i2).append (Reindent.refl _)
      · intro r ts hr hl
        rw [show "\nend".toList = '\n' :: "end".toList from rfl]
        simp only [List.append_assoc, List.cons_append, List.nil_append, Stmt.toks]
        obtain ⟨j1, j2⟩ := i3 _ _ rfl (hend r ts hr hl)
        refine Lx.kw (by decide) ?_ j2
        intro c hc; rw [j1] at hc; simp only [Option.some.injEq] at hc; subst hc; decide
    | some n =>
      obtain ⟨hn, hnl⟩ := h.1 n rfl
      have hesc : NoBreak (escape n) := by
        intro c hc hb
        unfold escape at hc
        split at hc
        · rcases List.mem_append.mp hc with h | h
          · rw [hnl c h] at hb; simp at hb
          · simp at h; subst h; revert hb; decide
        · rw [hnl c hc] at hb; simp at hb
      have hcode : (Stmt.block (some n) ss).code = "begin".toList ++ (" : ".toList ++ escape n) ++ linesCode ((Stmt.codes ss).map (indentN 2)) ++ "\nend".toList := by
        simp only [Stmt.code]
        unfold blockCode
        rfl
      refine ⟨?_, "begin".toList ++ (" : ".toList ++ escape n) ++ raw ++ "\nend".toList, ?_, ?_⟩
      · rw [hcode]
        exact (((NoBreak.lit _ (by decide)).append ((NoBreak.lit _ (by decide)).append hesc)).append i1).append (NoBreak.lit _ (by decide))
      · rw [hcode]
        exact ((Reindent.refl _).append i2).append (Reindent.refl _)
      · intro r ts hr hl
        rw [show "\nend".toList = '\n' :: "end".toList from rfl, show " : ".toList = [' ', ':', ' '] from rfl]
        simp only [List.append_assoc, List.cons_append, List.nil_append, Stmt.toks]
        obtain ⟨j1, j2⟩ := i3 _ _ rfl (hend r ts hr hl)
        have hid := hn.lexP true (by simp) (r := raw ++ '\n' :: ("end".toList ++ r)) (ts := Stmt.toksL ss ++ .kw "end".toList :: ts)
          (by intro c hc; rw [j1] at hc; simp only [Option.some.injEq] at hc; subst hc; decide) j2
        rw [sq_true] at hid
        exact Lx.kw (by decide) (by simp; decide) (Lx.sp1 (Lx.ch .colon ':' rfl rfl (Lx.sp1 hid)))
  | fors pl pr c ql qr s ih =>
    intro h
    simp only [Stmt.WF] at h
    obtain ⟨_, _, hp, hqs, hrs, hs⟩ := h
    obtain ⟨s1, raw, s2, s3⟩ := ih hs
    have h1 := hp pl (by simp)
    have h2 := hp pr (by simp)
    have h3 := hp c (by simp)
    have h4 := hp ql (by simp)
    have h5 := hp qr (by simp)
    have hcode : (Stmt.fors pl pr c ql qr s).code = "for(".toList ++ (delSpace pl.rcode ++ '=' :: (delSpace pr.rcode ++ [';'])) ++ [' '] ++
        delSpace c.rcode ++ "; ".toList ++ (delSpace ql.rcode ++ '=' :: delSpace qr.rcode) ++ ") ".toList ++ s.code := by
      simp only [Stmt.code]
      unfold forCode
      rw [for_asg h1 h2, for_post h4 h5 hqs hrs]
    have hds : ∀ e : Ex, e.Printable → NoBreak (delSpace e.rcode) :=
      fun e he c hc => he.noBreak c (List.mem_of_mem_filter hc)
    have heq : ∀ x : Str, NoBreak x → NoBreak ('=' :: x) := fun x hx => (NoBreak.lit ['='] (by decide)).append hx
    refine ⟨?_, "for(".toList ++ (delSpace pl.rcode ++ '=' :: (delSpace pr.rcode ++ [';'])) ++ [' '] ++
        delSpace c.rcode ++ "; ".toList ++ (delSpace ql.rcode ++ '=' :: delSpace qr.rcode) ++ ") ".toList ++ raw, ?_, ?_⟩
    · rw [hcode]
      exact NoBreak.append (NoBreak.append (NoBreak.append (NoBreak.append (NoBreak.append (NoBreak.append (NoBreak.append (NoBreak.lit _ (by decide))
        ((hds _ h1.1).append (heq _ ((hds _ h2.1).append (NoBreak.lit _ (by decide)))))) (NoBreak.lit _ (by decide))) (hds _ h3.1)) (NoBreak.lit _ (by decide)))
        ((hds _ h4.1).append (heq _ (hds _ h5.1)))) (NoBreak.lit _ (by decide))) s1
    · rw [hcode]
      exact (Reindent.refl _).append s2
    · intro r ts hr hl
      have hbody := s3 r ts hr hl
      have e1 : "for(".toList = "for".toList ++ ['('] := rfl
      have e2 : "; ".toList = [';', ' '] := rfl
      have e3 : ") ".toList = [')', ' '] := rfl
      have hpost := tight_asg ⟨h4.1.1, h4.2⟩ ⟨h5.1.1, h5.2⟩ (')' :: ' ' :: (raw ++ r)) (.p .rparen :: (s.toks ++ ts)) (Delim.cons _ (by decide))
        (Lx.ch .rparen ')' rfl rfl (Lx.sp1 hbody))
      have hcond := Tight.lexP h3.1.1 h3.2 (';' :: ' ' :: _) _ (Delim.cons _ (by decide)) (Lx.ch .semicolon ';' rfl rfl (Lx.sp1 hpost))
      have hpre := tight_asg ⟨h1.1.1, h1.2⟩ ⟨h2.1.1, h2.2⟩ (';' :: ' ' :: _) _ (Delim.cons _ (by decide)) (Lx.ch .semicolon ';' rfl rfl (Lx.sp1 hcond))
      have := Lx.kw (w := "for".toList) (by decide) (r := '(' :: _) (by simp; decide) (Lx.ch .lparen '(' rfl rfl hpre)
      rw [e1, e2, e3]
      simp only [List.append_assoc, List.cons_append, List.nil_append, Stmt.toks] at this ⊢
      exact this
  | whiles c s ih =>
    intro h
    simp only [Stmt.WF] at h
    obtain ⟨hc, hs⟩ := h
    obtain ⟨s1, raw, s2, s3⟩ := ih hs
    have hcode : (Stmt.whiles c s).code = "while(".toList ++ c.rcode ++ ") ".toList ++ s.code := by
      simp only [Stmt.code]
      unfold whileCode
      rfl
    refine ⟨?_, "while(".toList ++ c.rcode ++ ") ".toList ++ raw, ?_, ?_⟩
    · rw [hcode]
      exact (((NoBreak.lit _ (by decide)).append hc.noBreak).append (NoBreak.lit _ (by decide))).append s1
    · rw [hcode]
      exact (Reindent.refl _).append s2
    · intro r ts hr hl
      rw [show "while(".toList = "while".toList ++ ['('] from rfl, show ") ".toList = [')', ' '] from rfl]
      simp only [List.append_assoc, List.cons_append, List.nil_append, Stmt.toks]
      exact Lx.kw (by decide) (by simp; decide) (Lx.ch .lparen '(' rfl rfl (Printable.lexP hc.1 (')' :: _) _ (Delim.cons _ (by decide))
        (Lx.ch .rparen ')' rfl rfl (Lx.sp1 (s3 r ts hr hl)))))

/-- The tokens of a printed statement. -/
theorem stmt_lex (s : Stmt) (h : s.WF) : lex s.code = some s.toks := by
  obtain ⟨_, raw, h2, h3⟩ := stmt_print s h
  rw [lex_reindent h2]
  exact h3.toLex

end Pyv
