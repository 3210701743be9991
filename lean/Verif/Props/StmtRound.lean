import Verif.Props.StmtParse
/-
  Printed statements are read back.
-/
namespace Pyv

theorem ex_parse {e : Ex} (h : e.WF) {t : Tok} (ht : t.ends = true) (ts : List Tok) :
    St [] (e.itoks ++ t :: ts) [.ex e.erase] (t :: ts) := by
  have hp : ∃ k, t = .p k ∧ isTerm (.tok (.p k)) = true := by
    cases t with
    | p k => exact ⟨k, rfl, ht⟩
    | _ => simp [Tok.ends, isTerm] at ht
  obtain ⟨k, rfl, hk⟩ := hp
  refine (parse_main e h).1 [] _ rfl (weaker_zero rfl e h) ?_ (red_none ?_ e)
  · cases k <;> first | (simp [isTerm] at hk; done) | simp [Follow]
  · cases k <;> first | (simp [isTerm] at hk; done) | rfl

theorem isBase_erase (e : Ex) (h : e.isBase = true) : e.erase.isBase = true := by
  induction e using Ex.ind with
  | ident sc n => rfl
  | ptr v p ihv _ => simp only [Ex.erase, Ex.isBase] at h ⊢; exact ihv h
  | _ => simp [Ex.isBase] at h

theorem base_parse {l : Ex} (h : l.WF) (hb : l.isBase = true ∨ ∃ v m r, l = .psel v m r) {t : Tok} (ht : t.endsLeft = true)
    (ts : List Tok) : ∃ f, leftOf f = some l.erase ∧ St [] (l.itoks ++ t :: ts) f (t :: ts) := by
  obtain ⟨h1, h2, _⟩ := parse_main l h
  rcases hb with hb | ⟨v, m, r, rfl⟩
  · obtain ⟨b, hbb, hst⟩ := h2 hb [] (t :: ts) rfl
    refine ⟨[b], ?_, hst⟩
    cases b <;> first | (simp [Sym.base?] at hbb; done) | (simp only [Sym.base?, Option.some.injEq] at hbb; rw [← hbb]; rfl)
  · refine ⟨_, rfl, h1 [] _ rfl trivial ?_ trivial⟩
    rcases endsLeft_cases ht with rfl | rfl | rfl | rfl <;> simp [Follow]

theorem base_first {l : Ex} (h : l.isBase = true) : ∃ n r, l.itoks = .id n :: r := by
  induction l using Ex.ind with
  | ident sc n =>
    cases sc with
    | nil => exact ⟨_, _, rfl⟩
    | cons a sc => exact ⟨_, _, rfl⟩
  | ptr v p ihv _ =>
    obtain ⟨n, r, e⟩ := ihv h
    exact ⟨n, _, by simp only [Ex.itoks, e]; rfl⟩
  | _ => simp [Ex.isBase] at h

/-- A left side, or an item of one, up to what follows it. -/
theorem left_reads {l : Ex} (ha : l.Assignable) : l.WF → ∀ (o : List OSym) {t : Tok}, t.endsLeft = true → ∀ ts : List Tok,
    SSt (.lhs :: o) [] (l.itoks ++ t :: ts) (.lv l.erase :: o) [] (t :: ts) := by
  have hplain : ∀ {l : Ex}, l.WF → (l.isBase = true ∨ ∃ v m r, l = .psel v m r) → ∀ (o : List OSym) {t : Tok}, t.endsLeft = true →
      ∀ ts : List Tok, SSt (.lhs :: o) [] (l.itoks ++ t :: ts) (.lv l.erase :: o) [] (t :: ts) := by
    intro l hw hb o t ht ts
    obtain ⟨f, hf, hst⟩ := base_parse hw hb ht ts
    refine (lift_lhs hf (.inr ?_) hst).trans (.one (lv_of_left hf ht ts))
    rcases hb with hb | ⟨v, m, r, rfl⟩
    · obtain ⟨n, r, e⟩ := base_first hb
      exact ⟨n, by rw [e]; rfl⟩
    · simp only [Ex.WF] at hw
      obtain ⟨n, r, e⟩ := base_first hw.1
      exact ⟨n, by simp only [Ex.itoks, e]; rfl⟩
  induction ha with
  | base e hb => exact fun hw => hplain hw (.inl hb)
  | part v m l => exact fun hw => hplain hw (.inr ⟨_, _, _, rfl⟩)
  | concat es hes ih =>
    intro hw o t ht ts
    simp only [Ex.WF, WFs_iff] at hw
    simp only [Ex.itoks, itokss_eq_map, List.append_assoc, List.cons_append, List.nil_append]
    refine .head (o1 := .lhs :: .lcat [] :: o) (i1 := []) rfl ?_
    have hlist : ∀ (es : List Ex) (done : List Ex), es ≠ [] → (∀ e ∈ es, e.WF) →
        (∀ e ∈ es, e.WF → ∀ (o : List OSym) {t : Tok}, t.endsLeft = true → ∀ ts : List Tok,
          SSt (.lhs :: o) [] (e.itoks ++ t :: ts) (.lv e.erase :: o) [] (t :: ts)) →
        SSt (.lhs :: .lcat done :: o) [] (commaT (es.map Ex.itoks) ++ .p .rbrace :: t :: ts)
          (.lv (.concat (done ++ es.map Ex.erase)) :: o) [] (t :: ts) := by
      intro es
      induction es with
      | nil => intro done h; exact absurd rfl h
      | cons e es ihl =>
        intro done _ hw hr
        cases es with
        | nil =>
          simp only [List.map_cons, List.map_nil, commaT]
          exact (hr e (by simp) (hw e (by simp)) _ rfl _).trans (.one rfl)
        | cons e2 es =>
          simp only [List.map_cons, commaT, List.append_assoc, List.cons_append]
          refine (hr e (by simp) (hw e (by simp)) _ rfl _).trans (.head (o1 := .lhs :: .lcat (done ++ [e.erase]) :: o) (i1 := []) rfl ?_)
          have := ihl (done ++ [e.erase]) (by simp) (fun x hx => hw x (by simp at hx ⊢; tauto))
            (fun x hx => hr x (by simp at hx ⊢; tauto))
          simpa [commaT] using this
    have := hlist es [] hw.1 hw.2 ih
    simpa only [Ex.erase, erases_eq_map, List.nil_append] using this

theorem Ex.Assignable.head {l : Ex} (ha : l.Assignable) (hw : l.WF) :
    ∃ t r, l.itoks = t :: r ∧ ((∃ n, t = .id n) ∨ t = .p .lbrace) := by
  have hbase : ∀ l : Ex, l.isBase = true → ∃ t r, l.itoks = t :: r ∧ ((∃ n, t = .id n) ∨ t = .p .lbrace) := by
    intro l h
    induction l using Ex.ind with
    | ident sc n =>
      cases sc with
      | nil => exact ⟨_, _, rfl, .inl ⟨_, rfl⟩⟩
      | cons a sc => exact ⟨_, _, rfl, .inl ⟨_, rfl⟩⟩
    | ptr v p ihv _ =>
      obtain ⟨t, r, e, ht⟩ := ihv h
      exact ⟨t, _, by simp only [Ex.itoks, e]; rfl, ht⟩
    | _ => simp [Ex.isBase] at h
  cases ha with
  | base _ hb => exact hbase l hb
  | part v m l =>
    simp only [Ex.WF] at hw
    obtain ⟨t, r, e, ht⟩ := hbase v hw.1
    exact ⟨t, _, by simp only [Ex.itoks, e]; rfl, ht⟩
  | concat es hes => exact ⟨_, _, rfl, .inr rfl⟩

/-- An assignment up to its end. -/
theorem asg_parse {l r : Ex} (hl : l.WF) (ha : l.Assignable) (hr : r.WF) (nb : Bool) {o : List OSym} (ho : NoCat o) {t : Tok}
    (ht : t.ends = true) (ts : List Tok) :
    SSt (.lhs :: o) [] (l.itoks ++ .p (asgPun nb) :: (r.itoks ++ t :: ts)) (.asg nb l.erase :: o) [.ex r.erase] (t :: ts) := by
  refine (left_reads ha hl o (t := .p (asgPun nb)) (by cases nb <;> rfl) _).trans
    (.head (sstep_lv ho l.erase nb _) (lift_ex (by exact trivial) (ex_parse hr ht ts)))

/-- A statement begins on this stack. -/
def NewTop (o : List OSym) : Prop := ∀ ts, ts.head? ≠ some (kwt "end") → sstep o [] ts = startStmt o ts

theorem NewTop.noCat {o : List OSym} (h : NewTop o) : NoCat o := by
  rintro es o' rfl
  have := h [.id []] (by simp [kwt])
  simp [sstep, startStmt] at this

theorem start_asg {l : Ex} (ha : l.Assignable) (hw : l.WF) {o : List OSym} (ho : NewTop o) (ts : List Tok) :
    sstep o [] (l.itoks ++ ts) = some (.lhs :: o, [], l.itoks ++ ts) := by
  obtain ⟨t, r, e, ht⟩ := ha.head hw
  rw [e, List.cons_append]
  rcases ht with ⟨n, rfl⟩ | rfl
  · rw [ho _ (by simp [kwt])]; rfl
  · rw [ho _ (by simp [kwt])]; rfl

/-- The first token of a statement. -/
theorem toks_head {s : Stmt} (h : s.WF) : ∃ t r, s.toks = t :: r ∧ t ≠ kwt "end" ∧ t ≠ kwt "else" := by
  have hl : ∀ (l : Ex) (ts : List Tok), l.Assignable → l.WF → ∃ t r, l.itoks ++ ts = t :: r ∧ t ≠ kwt "end" ∧ t ≠ kwt "else" := by
    intro l ts ha hw
    obtain ⟨t, r, e, ht⟩ := ha.head hw
    refine ⟨t, r ++ ts, by rw [e]; rfl, ?_⟩
    rcases ht with ⟨n, rfl⟩ | rfl <;> simp [kwt]
  cases s with
  | skip => exact h.elim
  | nb l r => simp only [Stmt.WF] at h; exact hl l _ h.2.1 h.1.1
  | ba l r => simp only [Stmt.WF] at h; exact hl l _ h.2.1 h.1.1
  | cases k c cs ss =>
    simp only [Stmt.WF] at h
    rcases h.1 with rfl | rfl
    · exact ⟨_, _, rfl, by simp [kwt, CaseKind.word], by simp [kwt, CaseKind.word]⟩
    · exact ⟨_, _, rfl, by simp [kwt, CaseKind.word], by simp [kwt, CaseKind.word]⟩
  | ifs => exact ⟨_, _, rfl, by simp [kwt], by simp [kwt]⟩
  | block => exact ⟨_, _, rfl, by simp [kwt], by simp [kwt]⟩
  | fors => exact ⟨_, _, rfl, by simp [kwt], by simp [kwt]⟩
  | whiles => exact ⟨_, _, rfl, by simp [kwt], by simp [kwt]⟩

/-- The statement is read, whatever follows it (but no `else` that would be its own). -/
def StmtReads (s : Stmt) : Prop := ∀ o ts, NewTop o → (s.openIf = true → ts.head? ≠ some (kwt "else")) →
  SSt o [] (s.toks ++ ts) (.st s.erase :: o) [] ts

theorem newTop_nil : NewTop [] := fun _ _ => rfl
theorem newTop_ifh (c : Ex) (o : List OSym) : NewTop (.ifh c :: o) := fun _ _ => rfl
theorem newTop_els (c : Ex) (t : Stmt) (o : List OSym) : NewTop (.els c t :: o) := fun _ _ => rfl
theorem newTop_whileh (c : Ex) (o : List OSym) : NewTop (.whileh c :: o) := fun _ _ => rfl
theorem newTop_forB (a b c d e : Ex) (o : List OSym) : NewTop (.forB a b c d e :: o) := fun _ _ => rfl
theorem newTop_item (c : Option (List Ex)) (o : List OSym) : NewTop (.item c :: o) := fun _ _ => rfl
theorem newTop_blk (n : Option Str) (ss : List Stmt) (o : List OSym) : NewTop (.blk n ss :: o) := by
  intro ts h
  simp only [sstep]
  split
  · next w ts' =>
    rw [if_neg]
    rintro rfl
    exact h rfl
  · rfl

theorem start_kw {o : List OSym} (ho : NewTop o) (w : Str) (ts : List Tok) (h : w ≠ "end".toList) :
    sstep o [] (.kw w :: ts) = startStmt o (.kw w :: ts) := ho _ (by simpa [kwt] using h)

theorem reads_list (ss : List Stmt) (hw : ∀ s ∈ ss, s.WF) (h : ∀ s ∈ ss, StmtReads s) :
    ∀ (n : Option Str) (done : List Stmt) (o : List OSym) (ts : List Tok),
    SSt (.blk n done :: o) [] (Stmt.toksL ss ++ .kw "end".toList :: ts) (.st (.block n (done ++ Stmt.erases ss)) :: o) [] ts := by
  induction ss with
  | nil =>
    intro n done o ts
    simp only [Stmt.toksL, Stmt.erases, List.append_nil, List.nil_append]
    exact .one (by simp [sstep])
  | cons s ss ih =>
    intro n done o ts
    simp only [Stmt.toksL, Stmt.erases, List.append_assoc]
    refine (h s (by simp) _ _ (newTop_blk n done o) ?_).trans ?_
    · intro _
      cases ss with
      | nil => simp [Stmt.toksL, kwt]
      | cons s2 ss =>
        obtain ⟨t, r, e, _, ht⟩ := toks_head (hw s2 (by simp))
        simp only [Stmt.toksL, e, List.cons_append, List.head?_cons]
        simpa using ht
    · refine .head (o1 := .blk n (done ++ [s.erase]) :: o) (i1 := []) rfl ?_
      have := ih (fun s hs => hw s (by simp [hs])) (fun s hs => h s (by simp [hs])) n (done ++ [s.erase]) o ts
      simpa using this

theorem itoks_head (e : Ex) (hw : e.WF) : ∃ t r, e.itoks = t :: r ∧ ∀ w, t ≠ .kw w := by
  have hwrap : ∀ e : Ex, (∃ t r, e.itoks = t :: r ∧ ∀ w, t ≠ .kw w) → ∃ t r, e.wrapT e.itoks = t :: r ∧ ∀ w, t ≠ .kw w := by
    intro e h
    unfold Ex.wrapT
    split
    · exact ⟨_, _, rfl, by simp⟩
    · exact h
  induction e using Ex.ind with
  | ident sc n =>
    cases sc with
    | nil => exact ⟨_, _, rfl, by simp⟩
    | cons a sc => exact ⟨_, _, rfl, by simp⟩
  | uplus e ih => simp only [Ex.WF] at hw; exact hwrap e (ih hw)
  | bin o a b iha _ =>
    simp only [Ex.WF] at hw
    simp only [Ex.itoks]
    have : ∃ t r, (if a.stripLeft o then a.itoks else a.wrapT a.itoks) = t :: r ∧ ∀ w, t ≠ .kw w := by
      split
      · exact iha hw.2.2.1
      · exact hwrap a (iha hw.2.2.1)
    obtain ⟨t, r, e, ht⟩ := this
    exact ⟨t, _, by rw [e]; rfl, ht⟩
  | psel v m l ihv _ _ =>
    simp only [Ex.WF] at hw
    obtain ⟨t, r, e, ht⟩ := ihv hw.2.1
    exact ⟨t, _, by simp only [Ex.itoks, e]; rfl, ht⟩
  | ptr v m ihv _ =>
    simp only [Ex.WF] at hw
    obtain ⟨t, r, e, ht⟩ := ihv hw.2.1
    exact ⟨t, _, by simp only [Ex.itoks, e]; rfl, ht⟩
  | _ => exact ⟨_, _, rfl, by simp⟩

/-- The conditions of a case item after the first. -/
theorem conds_parse (cs : List Ex) (hcs : ∀ c ∈ cs, c.WF) (hne : cs ≠ []) : ∀ (done : List Ex) (o : List OSym) (ts : List Tok),
    SSt (.conds done :: o) [] (commaT (cs.map Ex.itoks) ++ .p .colon :: ts) (.item (some (done ++ cs.map Ex.erase)) :: o) [] ts := by
  induction cs with
  | nil => exact absurd rfl hne
  | cons c cs ih =>
    intro done o ts
    have hc := hcs c (by simp)
    cases cs with
    | nil =>
      simp only [List.map_cons, List.map_nil, commaT]
      exact (lift_ex (by exact trivial) (ex_parse hc rfl ts)).trans (.one rfl)
    | cons c2 cs =>
      simp only [List.map_cons, commaT, List.append_assoc, List.cons_append]
      refine (lift_ex (by exact trivial) (ex_parse hc rfl _)).trans (.head (o1 := .conds (done ++ [c.erase]) :: o) (i1 := []) rfl ?_)
      have := ih (fun c hc => hcs c (by simp at hc ⊢; tauto)) (by simp) (done ++ [c.erase]) o ts
      simpa [commaT] using this

theorem cond_parse (c : Option (List Ex)) (hc : CondsOK c) (k : CaseKind) (e : Ex) (cs : List (Option (List Ex))) (ss : List Stmt)
    (o : List OSym) (ts : List Tok) :
    SSt (.caseh k e cs ss :: o) [] (condToks c ++ .p .colon :: ts) (.item (c.map (List.map Ex.erase)) :: .caseh k e cs ss :: o) [] ts := by
  cases c with
  | none =>
    simp only [condToks, List.cons_append, List.nil_append]
    exact .one (by simp [sstep])
  | some es =>
    simp only [CondsOK] at hc
    obtain ⟨hne, hp⟩ := hc
    have hhead : ∃ t r, commaT (es.map Ex.itoks) ++ .p .colon :: ts = t :: r ∧ ∀ w, t ≠ .kw w := by
      cases es with
      | nil => exact absurd rfl hne
      | cons x xs =>
        obtain ⟨t, r, e, ht⟩ := itoks_head x (hp x (by simp)).1
        cases xs with
        | nil => exact ⟨t, _, by simp only [List.map_cons, List.map_nil, commaT, e]; rfl, ht⟩
        | cons y ys => exact ⟨t, _, by simp only [List.map_cons, commaT, e]; rfl, ht⟩
    obtain ⟨t, r, he, ht⟩ := hhead
    have hcs := conds_parse es (fun c hc => (hp c hc).1) hne [] (.caseh k e cs ss :: o) ts
    simp only [condToks]
    rw [he] at hcs ⊢
    refine .head (o1 := .conds [] :: .caseh k e cs ss :: o) (i1 := []) (t1 := t :: r) ?_ (by simpa using hcs)
    cases t <;> first | rfl | exact absurd rfl (ht _)

theorem reads_items (conds : List (Option (List Ex))) (hc : ∀ c ∈ conds, CondsOK c) : ∀ (bodies : List Stmt),
    conds.length = bodies.length → (∀ s ∈ bodies, StmtReads s) →
    ∀ (k : CaseKind) (e : Ex) (cs : List (Option (List Ex))) (ss : List Stmt) (o : List OSym) (ts : List Tok),
    SSt (.caseh k e cs ss :: o) [] (Stmt.itemToks conds bodies ++ .kw "endcase".toList :: ts)
      (.caseh k e (cs ++ conds.map (Option.map (List.map Ex.erase))) (ss ++ Stmt.erases bodies) :: o) [] (.kw "endcase".toList :: ts) := by
  induction conds with
  | nil =>
    intro bodies hl _ k e cs ss o ts
    cases bodies with
    | nil => simp only [Stmt.itemToks, Stmt.erases, List.map_nil, List.append_nil, List.nil_append]; exact .refl
    | cons => simp at hl
  | cons c conds ih =>
    intro bodies hl h k e cs ss o ts
    cases bodies with
    | nil => simp at hl
    | cons s bodies =>
      simp only [Stmt.itemToks, List.append_assoc, List.cons_append]
      refine (cond_parse c (hc c (by simp)) k e cs ss o _).trans ?_
      refine (h s (by simp) _ _ (newTop_item _ _) ?_).trans ?_
      · intro _
        cases conds with
        | nil =>
          cases bodies with
          | nil => simp [Stmt.itemToks, kwt]
          | cons => simp at hl
        | cons c2 conds =>
          cases bodies with
          | nil => simp at hl
          | cons s2 bodies =>
            have h2 := hc c2 (by simp)
            cases c2 with
            | none => simp [Stmt.itemToks, condToks, kwt]
            | some es =>
              simp only [CondsOK] at h2
              cases es with
              | nil => exact absurd rfl h2.1
              | cons x xs =>
                obtain ⟨t, r, e, ht⟩ := itoks_head x (h2.2 x (by simp)).1
                cases xs with
                | nil =>
                  simp only [Stmt.itemToks, condToks, List.map_cons, List.map_nil, commaT, e, List.cons_append, List.head?_cons]
                  intro hh; simp only [Option.some.injEq] at hh; exact ht _ hh
                | cons y ys =>
                  simp only [Stmt.itemToks, condToks, List.map_cons, commaT, e, List.cons_append, List.head?_cons]
                  intro hh; simp only [Option.some.injEq] at hh; exact ht _ hh
      · refine .head (o1 := .caseh k e (cs ++ [c.map (List.map Ex.erase)]) (ss ++ [s.erase]) :: o) (i1 := []) rfl ?_
        have := ih (fun c hc' => hc c (by simp [hc'])) bodies (by simpa using hl) (fun s hs => h s (by simp [hs])) k e
          (cs ++ [c.map (List.map Ex.erase)]) (ss ++ [s.erase]) o ts
        simpa [Stmt.erases] using this

theorem sstep_endcase (k : CaseKind) (e : Ex) (cs : List (Option (List Ex))) (ss : List Stmt) (o : List OSym) (ts : List Tok) (h : cs ≠ []) :
    sstep (.caseh k e cs ss :: o) [] (.kw "endcase".toList :: ts) = some (.st (.cases k e cs ss) :: o, [], ts) := by
  simp only [sstep]
  rw [if_neg (by decide), if_pos (by simpa using h)]

theorem ended_erase {s : Stmt} (h : s.WF) (hl : s.isLoop = false) : s.erase.hasEnd = true := by
  cases s <;> first | rfl | (simp [Stmt.isLoop] at hl; done) | exact h.elim

theorem stmt_reads (s : Stmt) : s.WF → StmtReads s := by
  have hasg : ∀ (nb : Bool) (l r : Ex), l.Printable → l.Assignable → r.Printable → ∀ o ts, NewTop o →
      SSt o [] ((l.itoks ++ .p (asgPun nb) :: (r.itoks ++ [.p .semicolon])) ++ ts)
        (.st (if nb then .nb l.erase r.erase else .ba l.erase r.erase) :: o) [] ts := by
    intro nb l r hl ha hr o ts ho
    simp only [List.append_assoc, List.cons_append, List.nil_append]
    refine .head (start_asg ha hl.1 ho _) ((asg_parse hl.1 ha hr.1 nb ho.noCat (t := .p .semicolon) rfl ts).trans (.one ?_))
    cases nb <;> rfl
  induction s using Stmt.ind with
  | skip => intro h; exact h.elim
  | nb l r => intro h o ts ho _; simp only [Stmt.WF] at h; exact hasg true l r h.1 h.2.1 h.2.2 o ts ho
  | ba l r => intro h o ts ho _; simp only [Stmt.WF] at h; exact hasg false l r h.1 h.2.1 h.2.2 o ts ho
  | ifs c t f iht ihf =>
    intro h o ts ho hop
    simp only [Stmt.WF] at h
    obtain ⟨hc, ht, hf⟩ := h
    simp only [Stmt.toks, List.append_assoc, List.cons_append]
    refine .head (o1 := .head "if".toList :: o) (i1 := []) (by rw [start_kw ho _ _ (by decide)]; rfl) ?_
    refine (lift_ex (by exact trivial) (ex_parse hc.1 (t := .p .rparen) rfl _)).trans (.head (o1 := .ifh c.erase :: o) (i1 := []) rfl ?_)
    rcases hf with ⟨rfl, hlp⟩ | ⟨hf, hno, hlp⟩
    · have hne : ts.head? ≠ some (kwt "else") := hop (by simp [Stmt.openIf, Stmt.isNull])
      simp only [Stmt.isNull, if_true, List.nil_append, Stmt.erase]
      refine (iht ht _ _ (newTop_ifh _ _) (fun _ => hne)).trans (.one ?_)
      simp only [sstep, reduceStmt]
      rw [ended_erase ht hlp]
      split
      · next w ts' =>
        rw [if_neg]
        · rfl
        · rintro rfl
          exact hne rfl
      · rfl
    · simp only [WF.notSkip hf, Bool.false_eq_true, if_false, List.cons_append, Stmt.erase]
      refine (iht ht _ _ (newTop_ifh _ _) (fun h => by rw [hno] at h; simp at h)).trans ?_
      refine .head (o1 := .els c.erase t.erase :: o) (i1 := []) (t1 := f.toks ++ ts) (by simp [sstep, reduceStmt]) ?_
      refine (ihf hf _ _ (newTop_els _ _ _) (fun h => hop (by simp [Stmt.openIf, h]))).trans (.one ?_)
      simp [sstep, reduceStmt, ended_erase hf hlp]
  | cases k c cs ss ih =>
    intro h o ts ho _
    simp only [Stmt.WF, swfs_iff] at h
    obtain ⟨hk, hc, hne, hl, hcs, hss⟩ := h
    simp only [Stmt.toks, List.append_assoc, List.cons_append, List.nil_append]
    refine .head (o1 := .head (k.word.getD []) :: o) (i1 := []) (t1 := c.itoks ++ .p .rparen :: (Stmt.itemToks cs ss ++ .kw "endcase".toList :: ts)) ?_ ?_
    · rcases hk with rfl | rfl <;> (rw [start_kw ho _ _ (by decide)]; rfl)
    refine (lift_ex (by exact trivial) (ex_parse hc.1 (t := .p .rparen) rfl _)).trans (.head (o1 := .caseh k c.erase [] [] :: o) (i1 := []) (t1 := Stmt.itemToks cs ss ++ .kw "endcase".toList :: ts) ?_ ?_)
    · rcases hk with rfl | rfl <;> rfl
    refine (reads_items cs hcs ss hl (fun s hs => ih s hs (hss s hs)) k c.erase [] [] o ts).trans (.one ?_)
    simp only [List.nil_append, Stmt.erase]
    exact sstep_endcase _ _ _ _ _ _ (by simpa using hne)
  | block n ss ih =>
    intro h o ts ho _
    simp only [Stmt.WF, swfs_iff] at h
    have hl := fun n => reads_list ss h.2 (fun s hs => ih s hs (h.2 s hs)) n [] o ts
    cases n with
    | none =>
      simp only [Stmt.toks, List.append_assoc, List.cons_append, List.nil_append]
      refine .head (o1 := .blk none [] :: o) (i1 := []) (t1 := Stmt.toksL ss ++ .kw "end".toList :: ts) ?_ (by simpa [Stmt.erase] using hl none)
      rw [start_kw ho _ _ (by decide)]
      simp only [startStmt, if_true]
      split
      · next n' ts' he =>
        exfalso
        cases ss with
        | nil => simp [Stmt.toksL] at he
        | cons s ss =>
          have hw := h.2 s (by simp)
          cases s with
          | skip => exact hw.elim
          | nb l r =>
            simp only [Stmt.WF] at hw
            obtain ⟨t, r, e, ht⟩ := hw.2.1.head hw.1.1
            simp only [Stmt.toksL, Stmt.toks, e, List.cons_append, List.cons.injEq] at he
            rcases ht with ⟨n, rfl⟩ | rfl <;> simp at he
          | ba l r =>
            simp only [Stmt.WF] at hw
            obtain ⟨t, r, e, ht⟩ := hw.2.1.head hw.1.1
            simp only [Stmt.toksL, Stmt.toks, e, List.cons_append, List.cons.injEq] at he
            rcases ht with ⟨n, rfl⟩ | rfl <;> simp at he
          | _ => simp [Stmt.toksL, Stmt.toks] at he
      · rfl
    | some n =>
      simp only [Stmt.toks, List.append_assoc, List.cons_append, List.nil_append]
      refine .head (o1 := .blk (some n) [] :: o) (i1 := []) (t1 := Stmt.toksL ss ++ .kw "end".toList :: ts) ?_ (by simpa [Stmt.erase] using hl (some n))
      rw [start_kw ho _ _ (by decide)]
      rfl
  | fors pl pr c ql qr s ih =>
    intro h o ts ho hop
    simp only [Stmt.WF] at h
    obtain ⟨ha, hb, hp, _, _, hs⟩ := h
    have h1 := (hp pl (by simp)).1.1
    have h2 := (hp pr (by simp)).1.1
    have h3 := (hp c (by simp)).1.1
    have h4 := (hp ql (by simp)).1.1
    have h5 := (hp qr (by simp)).1.1
    simp only [Stmt.toks, List.append_assoc, List.cons_append]
    refine .head (o1 := .lhs :: .forP :: o) (i1 := []) (by rw [start_kw ho _ _ (by decide)]; rfl) ?_
    refine (asg_parse h1 ha h2 false (o := .forP :: o) (by intro _ _; simp) (t := .p .semicolon) rfl _).trans ?_
    refine .head (o1 := .st (.ba pl.erase pr.erase) :: .forP :: o) (i1 := []) rfl (.head (o1 := .forC pl.erase pr.erase :: o) (i1 := []) rfl ?_)
    refine (lift_ex (by exact trivial) (ex_parse h3 (t := .p .semicolon) rfl _)).trans (.head (o1 := .lhs :: .forQ pl.erase pr.erase c.erase :: o) (i1 := []) rfl ?_)
    refine (asg_parse h4 hb h5 false (o := .forQ pl.erase pr.erase c.erase :: o) (by intro _ _; simp) (t := .p .rparen) rfl _).trans ?_
    refine .head (o1 := .forB pl.erase pr.erase c.erase ql.erase qr.erase :: o) (i1 := []) rfl ?_
    exact (ih hs _ _ (newTop_forB _ _ _ _ _ _) hop).trans (.one rfl)
  | whiles c s ih =>
    intro h o ts ho hop
    simp only [Stmt.WF] at h
    simp only [Stmt.toks, List.append_assoc, List.cons_append]
    refine .head (o1 := .head "while".toList :: o) (i1 := []) (by rw [start_kw ho _ _ (by decide)]; rfl) ?_
    refine (lift_ex (by exact trivial) (ex_parse h.1.1 (t := .p .rparen) rfl _)).trans (.head (o1 := .whileh c.erase :: o) (i1 := []) rfl ?_)
    exact (ih h.2 _ _ (newTop_whileh _ _) hop).trans (.one rfl)

/-- The loop follows the actions. -/
theorem SSt.parse {o i t s} (h : SSt o i t [.st s] [] []) : ∃ n, sparseN n o i t = some s := by
  generalize ho : [OSym.st s] = o2 at h
  generalize hi : ([] : List Sym) = i2 at h
  generalize ht : ([] : List Tok) = t2 at h
  induction h with
  | refl => subst ho hi ht; exact ⟨1, rfl⟩
  | @head o i t o1 i1 t1 o2 i2 t2 hs _ ih =>
    obtain ⟨n, hn⟩ := ih ho hi ht
    refine ⟨n + 1, ?_⟩
    unfold sparseN
    split
    · simp [sstep, reduceStmt] at hs
    · rw [hs]; exact hn

theorem stmt_parses (s : Stmt) (h : s.WF) : StmtParsesTo s.code s.erase := by
  refine ⟨s.toks, stmt_lex s h, ?_⟩
  have := stmt_reads s h [] [] newTop_nil (by simp)
  rw [List.append_nil] at this
  exact this.parse

end Pyv
