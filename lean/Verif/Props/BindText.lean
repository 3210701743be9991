import Verif.BindCode
import Verif.Props.DFCode
import Verif.Props.ModuleRound
/-
  C78: the text printed for an assignment (`Bind.tocode`) reads back as a module item.
-/
namespace Pyv

/-! ## Specification -/

/-- The tree that selects what an assignment assigns: the signal, an element of it (`ptr`), some bits of it. -/
def Bind.target (b : Bind) : DF :=
  let v := if b.ptr = .none then .term b.dest else .ptr (.term b.dest) b.ptr
  if b.msb = .none ∨ b.lsb = .none then v else .psel v b.msb b.lsb

/-- `l <= r` or `l = r`. -/
def asgStmt (nb : Bool) (l r : Ex) : Stmt := if nb then .nb l r else .ba l r

/-- `Writes D nb t S`: the statements `S` assign to `D` what the tree `t` prescribes: conditionals on top of the tree are if
statements, a missing side assigns nothing. -/
inductive Writes (D : Ex) (nb : Bool) : DF → List Stmt → Prop
  | keep : Writes D nb .none []
  | value (t : DF) (e : Ex) : t ≠ .none → (∀ c a b, t ≠ .branch c a b) → Means (some D) t e → e.Plain → Writes D nb t [asgStmt nb D e]
  | one (c t : DF) (c' : Ex) (T : List Stmt) : Means (some D) c c' → c'.Plain → Writes D nb t T →
      Writes D nb (.branch c t .none) [.ifs c' (.block none T) .skip]
  | two (c t f : DF) (c' : Ex) (T F : List Stmt) : Means (some D) c c' → c'.Plain → Writes D nb t T → f ≠ .none → Writes D nb f F →
      Writes D nb (.branch c t f) [.ifs c' (.block none T) (.block none F)]

/-- An edge of a signal. -/
inductive EdgeItem : Option Str → Option ScopeChain → List SensItem → Prop
  | pos (n : ScopeChain) : PlainId n.tocode → EdgeItem (some "posedge".toList) (some n) [.posedge (.ident [] n.tocode)]
  | neg (n : ScopeChain) : PlainId n.tocode → EdgeItem (some "negedge".toList) (some n) [.negedge (.ident [] n.tocode)]

/-- `BindMeans b i`: the module item `i` makes the assignment `b`. -/
inductive BindMeans (b : Bind) : MItem → Prop
  | param (e : Ex) : b.param = "parameter".toList → b.target = .term b.dest → PlainId b.dest.tocode →
      Means (some (.ident [] b.dest.tocode)) b.tree e → e.Plain → BindMeans b (.decl [.param false ⟨b.dest.tocode, e, none, false⟩])
  | localparam (e : Ex) : b.param = "localparam".toList → b.target = .term b.dest → PlainId b.dest.tocode →
      Means (some (.ident [] b.dest.tocode)) b.tree e → e.Plain → BindMeans b (.decl [.param true ⟨b.dest.tocode, e, none, false⟩])
  | assign (D e : Ex) : b.param ≠ "parameter".toList → b.param ≠ "localparam".toList → b.always = none →
      Means none b.target D → D.Plain → Means (some D) b.tree e → e.Plain → BindMeans b (.assign D e)
  | comb (D : Ex) (S : List Stmt) (a : AlwaysInfo) : b.param ≠ "parameter".toList → b.param ≠ "localparam".toList →
      b.always = some a → a.clockName = none → b.tree ≠ .none →
      Means none b.target D → D.Plain → Writes D false b.tree S → BindMeans b (.always .always [.all] (.block none S))
  | clocked (D : Ex) (S : List Stmt) (a : AlwaysInfo) (ck rs : List SensItem) : b.param ≠ "parameter".toList →
      b.param ≠ "localparam".toList → b.always = some a → b.tree ≠ .none →
      EdgeItem a.clockEdge a.clockName ck → (a.resetName = none ∧ rs = [] ∨ EdgeItem a.resetEdge a.resetName rs) →
      Means none b.target D → D.Plain → Writes D true b.tree S → BindMeans b (.always .always (ck ++ rs) (.block none S))

/-! ## The destination -/

/-- Trees that stand for an expression without a destination have no gaps. -/
theorem means_noGap (t : DF) : ∀ e, Means none t e → t.hasGap = false := by
  have hl : ∀ (ns : List DF), (∀ n ∈ ns, ∀ e, Means none n e → n.hasGap = false) → ∀ es, List.Forall₂ (Means none) ns es →
      DF.hasGaps ns = false := by
    intro ns
    induction ns with
    | nil => intro _ es _; rfl
    | cons n ns ih =>
      intro hn es h
      cases h with
      | cons h1 h2 =>
        simp only [DF.hasGaps, Bool.or_eq_false_iff]
        exact ⟨hn n (by simp) _ h1, ih (fun m hm => hn m (by simp [hm])) _ h2⟩
  induction t using DF.ind with
  | op o ns ih =>
    intro e h
    simp only [DF.hasGap]
    cases h with
    | un _ a a' h1 => simp [DF.hasGaps, ih a (by simp) _ h1]
    | bin _ a b a' b' h1 h2 => simp [DF.hasGaps, ih a (by simp) _ h1, ih b (by simp) _ h2]
  | psel v m l ihv ihm ihl =>
    intro e h
    cases h with
    | psel _ _ _ _ _ _ h1 h2 h3 _ => simp [DF.hasGap, ihv _ h1, ihm _ h2, ihl _ h3]
    | bit _ _ _ _ _ h1 h2 h3 => simp [DF.hasGap, ihv _ h1, ihm _ h2, ihl _ h3]
  | ptr v p ihv ihp => intro e h; cases h with | ptr _ _ _ _ h1 h2 => simp [DF.hasGap, ihv _ h1, ihp _ h2]
  | concat ns ih => intro e h; cases h with | concat _ es h1 => simp only [DF.hasGap]; exact hl ns ih es h1
  | branch c t f ihc iht ihf =>
    intro e h
    cases h with
    | branch _ _ _ _ _ _ h1 h2 h3 =>
      have ht : t ≠ .none := by rintro rfl; cases h2
      have hf : f ≠ .none := by rintro rfl; cases h3
      simp [DF.hasGap, ihc _ h1, iht _ h2, ihf _ h3, ht, hf]
    | keepT _ _ _ _ _ hD => simp at hD
    | keepF _ _ _ _ _ hD => simp at hD
    | keep _ _ _ hD => simp at hD
  | sys s ns ih => intro e h; cases h with | sys _ _ es h1 => simp only [DF.hasGap]; exact hl ns ih es h1
  | _ => intro e h; rfl

theorem means_codeNone {t : DF} {e : Ex} (h : Means none t e) (hp : e.Plain) : t.tocodeNone = .ok e.dcode := by
  rw [DF.tocodeNone, means_noGap t e h]
  exact means_code (D := none) (fun _ h => by simp at h) t e h hp

/-- The text of the destination. -/
theorem getdest_eq {b : Bind} {D : Ex} (h : Means none b.target D) (hp : D.Plain) : b.getdest = .ok D.dcode := by
  have hv : ∀ V : Ex, V.Plain → Means none (if b.ptr = .none then .term b.dest else .ptr (.term b.dest) b.ptr) V →
      (if b.ptr ≠ .none then do
        let p ← b.ptr.tocodeNone
        .ok (b.dest.tocode ++ "[".toList ++ p ++ "]".toList)
      else .ok b.dest.tocode : Py Str) = .ok V.dcode := by
    intro V hV h
    by_cases hptr : b.ptr = .none
    · rw [if_pos hptr] at h
      rw [if_neg (by simp [hptr])]
      cases h
      rfl
    · rw [if_neg hptr] at h
      rw [if_pos hptr]
      cases h with
      | ptr _ _ v' p' h1 h2 =>
        simp only [Ex.Plain] at hV
        rw [means_codeNone h2 hV.2.2]
        cases h1
        simp [ok_bind, Ex.dcode]
  unfold Bind.target at h
  unfold Bind.getdest
  simp only at h ⊢
  by_cases hr : b.msb = .none ∨ b.lsb = .none
  · rw [if_pos hr] at h
    rw [hv D hp h]
    simp only [ok_bind]
    rw [if_neg (by tauto)]
  · rw [if_neg hr] at h
    push_neg at hr
    cases h with
    | psel _ _ _ v' m' l' h1 h2 h3 hne =>
      simp only [Ex.Plain] at hp
      rw [hv v' hp.2.1 h1]
      simp only [ok_bind]
      rw [if_pos ⟨hr.1, hr.2⟩, means_codeNone h2 hp.2.2.1, means_codeNone h3 hp.2.2.2]
      have hne' : m'.dcode ≠ l'.dcode := by
        intro heq
        exact hne ((heq ▸ dcode_parses m' hp.2.2.1).unique (dcode_parses l' hp.2.2.2))
      simp [ok_bind, hne', Ex.dcode]
    | bit _ _ _ v' m' h1 h2 h3 =>
      simp only [Ex.Plain] at hp
      rw [hv v' hp.2.1 h1]
      simp only [ok_bind]
      rw [if_pos ⟨hr.1, hr.2⟩, means_codeNone h2 hp.2.2, means_codeNone h3 hp.2.2]
      simp [ok_bind, Ex.dcode]

/-- What can stand on the left of an assignment. -/
def IsTarget (D : Ex) : Prop := D.Plain ∧ (D.isBase = true ∨ ∃ v m l, D = .psel v m l)

theorem target_is {b : Bind} {D : Ex} (h : Means none b.target D) (hp : D.Plain) : IsTarget D := by
  refine ⟨hp, ?_⟩
  have hv : ∀ V : Ex, Means none (if b.ptr = .none then .term b.dest else .ptr (.term b.dest) b.ptr) V → V.isBase = true := by
    intro V h
    split at h
    · cases h; rfl
    · cases h with | ptr _ _ _ _ h1 h2 => cases h1; rfl
  unfold Bind.target at h
  simp only at h
  split at h
  · exact .inl (hv D h)
  · cases h with
    | psel _ _ _ v' m' l' h1 h2 h3 hne => exact .inr ⟨_, _, _, rfl⟩
    | bit _ _ _ v' m' h1 h2 h3 => exact .inl (hv v' h1)

/-! ## Reading -/

theorem dex_parse {e : Ex} (h : e.Plain) {t : Tok} (ht : t.ends = true) (ts : List Tok) :
    St [] (e.dtoks ++ t :: ts) [.ex e] (t :: ts) := by
  have hp : ∃ k, t = .p k ∧ isTerm (.tok (.p k)) = true := by
    cases t with
    | p k => exact ⟨k, rfl, ht⟩
    | _ => simp [Tok.ends, isTerm] at ht
  obtain ⟨k, rfl, hk⟩ := hp
  refine (dtoks_parse e h).1 [] _ rfl ?_
  cases k <;> first | (simp [isTerm] at hk; done) | simp [Follow]

theorem dleft_parse {D : Ex} (h : IsTarget D) (nb : Bool) (ts : List Tok) :
    ∃ f, leftOf f = some D ∧ St [] (D.dtoks ++ .p (asgPun nb) :: ts) f (.p (asgPun nb) :: ts) := by
  obtain ⟨hp, hb | ⟨v, m, l, rfl⟩⟩ := h
  · obtain ⟨b, hb1, hst⟩ := (dtoks_parse D hp).2 hb [] (.p (asgPun nb) :: ts) rfl
    refine ⟨[b], ?_, hst⟩
    cases b <;> first | (simp [Sym.base?] at hb1; done) | (simp only [Sym.base?, Option.some.injEq] at hb1; rw [← hb1]; rfl)
  · refine ⟨_, rfl, (dtoks_parse _ hp).1 [] _ rfl ?_⟩
    cases nb <;> simp [Follow, asgPun]

theorem dbase_head (D : Ex) : D.isBase = true → ∃ n r, D.dtoks = .id n :: r := by
  induction D using Ex.ind with
  | ident sc n => intro _; exact ⟨_, _, rfl⟩
  | ptr v p ihv _ =>
    intro h
    obtain ⟨n, r, e⟩ := ihv h
    exact ⟨n, _, by simp only [Ex.dtoks, e]; rfl⟩
  | _ => intro h; simp [Ex.isBase] at h

theorem target_head {D : Ex} (h : IsTarget D) : ∃ n r, D.dtoks = .id n :: r := by
  obtain ⟨hp, hb | ⟨v, m, l, rfl⟩⟩ := h
  · exact dbase_head D hb
  · simp only [Ex.Plain] at hp
    obtain ⟨n, r, e⟩ := dbase_head v hp.1
    exact ⟨n, _, by simp only [Ex.dtoks, e]; rfl⟩

/-- An assignment up to its end. -/
theorem dasg_parse {l r : Ex} (hl : IsTarget l) (hr : r.Plain) (nb : Bool) {o : List OSym} (ho : NoCat o) {t : Tok} (ht : t.ends = true) (ts : List Tok) :
    SSt (.lhs :: o) [] (l.dtoks ++ .p (asgPun nb) :: (r.dtoks ++ t :: ts)) (.asg nb l :: o) [.ex r] (t :: ts) := by
  obtain ⟨f, hf, hst⟩ := dleft_parse hl nb (r.dtoks ++ t :: ts)
  obtain ⟨n, rr, e⟩ := target_head hl
  exact (lift_lhs hf (.inr ⟨n, by rw [e]; rfl⟩) hst).trans (.head (lv_of_left hf (by cases nb <;> rfl) _)
    (.head (sstep_lv ho l nb _) (lift_ex (by exact trivial) (dex_parse hr ht ts))))

/-- An assignment statement in a block. -/
theorem dasg_stmt {l r : Ex} (hl : IsTarget l) (hr : r.Plain) (nb : Bool) (n : Option Str) (ss : List Stmt) (o : List OSym) (ts : List Tok) :
    SSt (.blk n ss :: o) [] (l.dtoks ++ .p (asgPun nb) :: (r.dtoks ++ .p .semicolon :: ts)) (.blk n (ss ++ [asgStmt nb l r]) :: o) [] ts := by
  refine .head (o1 := .lhs :: .blk n ss :: o) (i1 := []) (t1 := l.dtoks ++ .p (asgPun nb) :: (r.dtoks ++ .p .semicolon :: ts)) ?_ ?_
  · obtain ⟨x, rest, e⟩ := target_head hl
    rw [e]; rfl
  · refine (dasg_parse hl hr nb (o := .blk n ss :: o) (by intro _ _; simp) (t := .p .semicolon) rfl ts).trans ?_
    refine .head (o1 := .st (asgStmt nb l r) :: .blk n ss :: o) (i1 := []) (t1 := ts) ?_ (.one rfl)
    cases nb <;> rfl

/-- The text of a destination or value in front of something. -/
theorem dcode_lx {e : Ex} (h : e.Plain) {c : Char} {r : Str} {ts : List Tok}
    (hc : isIdChar c = false ∧ c ≠ '\'' ∧ c ≠ '.' ∧ c ≠ '?') (hl : Lx (c :: r) ts) : Lx (e.dcode ++ c :: r) (e.dtoks ++ ts) :=
  dcode_lexP e h _ _ (Delim.cons r hc) hl

theorem Lx.word (w : String) (hw : w.toList ∈ reservedWords) {c : Char} {r : Str} {ts : List Tok} (hc : isIdChar c = false)
    (hl : Lx (c :: r) ts) : Lx (w.toList ++ c :: r) (.kw w.toList :: ts) :=
  Lx.kw hw (fun d hd => by simp only [List.head?_cons, Option.some.injEq] at hd; subst hd; exact hc) hl

/-- `D <= e;` or `D = e;` and a newline. -/
theorem asg_lx {D e : Ex} (hD : D.Plain) (he : e.Plain) (nb : Bool) {r : Str} {ts : List Tok} (hl : Lx r ts) :
    Lx (D.dcode ++ ((if nb then " <= ".toList else " = ".toList) ++ (e.dcode ++ (";\n".toList ++ r))))
      (D.dtoks ++ .p (asgPun nb) :: (e.dtoks ++ .p .semicolon :: ts)) := by
  have h1 : Lx (e.dcode ++ (";\n".toList ++ r)) (e.dtoks ++ .p .semicolon :: ts) :=
    dcode_lx he (by decide) (Lx.ch .semicolon ';' rfl rfl (Lx.nl hl))
  cases nb with
  | true =>
    refine dcode_lx hD (by decide) (Lx.sp1 ?_)
    exact Lx.les (Lx.sp1 h1)
  | false =>
    refine dcode_lx hD (by decide) (Lx.sp1 ?_)
    refine Lx.eqs ?_ (Lx.sp1 h1)
    intro c hc
    simp at hc; subst hc; decide

theorem text_begin : ") begin\n".toList = ')' :: ' ' :: "begin\n".toList := rfl
theorem btext_if : "if(".toList = "if".toList ++ ['('] := rfl
theorem btext_else : "else begin\n".toList = "else".toList ++ ' ' :: "begin\n".toList := rfl

/-- The text of the statements, and how it is read inside of a block. -/
def StmtsRead (c : Str) (S : List Stmt) : Prop :=
  ∃ T : List Tok, (∀ r ts, Lx r ts → Lx (c ++ r) (T ++ ts)) ∧
    ∀ (n : Option Str) (ss : List Stmt) (o : List OSym) (ts : List Tok), ts.head? ≠ some (kwt "else") → T.head? ≠ some (.p .colon) ∧
      SSt (.blk n ss :: o) [] (T ++ ts) (.blk n (ss ++ S) :: o) [] ts

/-- `begin` ... `end` after an if or else, or as the body of an always block. -/
theorem block_reads {c : Str} {S : List Stmt} (h : StmtsRead c S) :
    ∃ T : List Tok, (∀ r ts, Lx r ts → Lx ("begin\n".toList ++ (c ++ ("end\n".toList ++ r))) (T ++ ts)) ∧
      ∀ (o : List OSym), NewTop o → ∀ ts, SSt o [] (T ++ ts) (.st (.block none S) :: o) [] ts := by
  obtain ⟨T, h1, h2⟩ := h
  refine ⟨.kw "begin".toList :: (T ++ [.kw "end".toList]), ?_, ?_⟩
  · intro r ts hl
    simp only [List.append_assoc, List.cons_append, List.nil_append]
    refine Lx.word "begin" (by decide +kernel) (c := '\n') (by decide) (Lx.nl (h1 _ _ ?_))
    exact Lx.word "end" (by decide +kernel) (c := '\n') (by decide) (Lx.nl hl)
  · intro o ho ts
    simp only [List.append_assoc, List.cons_append, List.nil_append]
    obtain ⟨hc, h3⟩ := h2 none [] o (.kw "end".toList :: ts) (by simp [kwt])
    refine .head (o1 := .blk none [] :: o) (i1 := []) (t1 := T ++ .kw "end".toList :: ts) ?_ (h3.trans (.one rfl))
    rw [ho _ (by simp [kwt])]
    cases T with
    | nil => rfl
    | cons t T =>
      simp only [List.cons_append]
      cases t with
      | p k => cases k <;> first | (simp at hc; done) | rfl
      | _ => rfl

theorem writes_reads {D : Ex} (hD : IsTarget D) {nb : Bool} {t : DF} {S : List Stmt} (h : Writes D nb t S) :
    ∃ c, t.alwaysCode D.dcode nb = .ok c ∧ StmtsRead c S := by
  have hcode : ∀ {t e}, Means (some D) t e → e.Plain → t.tocode D.dcode = .ok e.dcode := by
    intro t e h hp
    exact means_code (fun x hx => by simp only [Option.some.injEq] at hx; rw [hx]) t e h hp
  have hbranch : ∀ {c t f : DF} {c' : Ex}, Means (some D) c c' → c'.Plain → ∀ {tc fc : Str}, t.alwaysCode D.dcode nb = .ok tc →
      f.alwaysCode D.dcode nb = .ok fc → (DF.branch c t f).alwaysCode D.dcode nb = .ok ("if(".toList ++ c'.dcode ++ ") begin\n".toList ++ tc ++ "end\n".toList ++
      (if f = .none then [] else "else begin\n".toList ++ fc ++ "end\n".toList)) := by
    intro c t f c' h hp tc fc h1 h2
    have hc : c ≠ .none := by rintro rfl; cases h
    have h0 := hcode h hp
    simp only [DF.alwaysCode]
    cases c <;> first | exact absurd rfl hc | simp only [h0, h1, h2, ok_bind]
  induction h with
  | keep =>
    refine ⟨[], rfl, [], fun r ts h => h, fun n ss o ts _ => ⟨by simp, ?_⟩⟩
    simp only [List.append_nil, List.nil_append]
    exact .refl
  | value t e hn hb hm hp =>
    refine ⟨D.dcode ++ (if nb then " <= ".toList else " = ".toList) ++ e.dcode ++ ";\n".toList, ?_, ?_⟩
    · have h0 := hcode hm hp
      cases t <;> first | exact absurd rfl hn | exact absurd rfl (hb _ _ _) | (simp only [DF.alwaysCode, h0, ok_bind])
    · refine ⟨D.dtoks ++ .p (asgPun nb) :: (e.dtoks ++ [.p .semicolon]), ?_, ?_⟩
      · intro r ts hl
        have := asg_lx hD.1 hp nb hl
        simpa only [List.append_assoc, List.cons_append, List.nil_append] using this
      · intro n ss o ts _
        refine ⟨?_, ?_⟩
        · obtain ⟨x, rest, e⟩ := target_head hD
          rw [e]; simp
        · have := dasg_stmt hD hp nb n ss o ts
          simpa only [List.append_assoc, List.cons_append, List.nil_append] using this
  | one c t c' T hm hp _ ih =>
    obtain ⟨tc, h1, h2⟩ := ih
    refine ⟨_, hbranch hm hp h1 (f := .none) rfl, ?_⟩
    obtain ⟨B, hB1, hB2⟩ := block_reads h2
    refine ⟨.kw "if".toList :: .p .lparen :: (c'.dtoks ++ .p .rparen :: B), ?_, ?_⟩
    · intro r ts hl
      simp only [if_true, List.append_nil, text_begin, btext_if, List.append_assoc, List.cons_append, List.nil_append]
      refine Lx.word "if" (by decide +kernel) (c := '(') (by decide) (Lx.ch .lparen '(' rfl rfl ?_)
      refine dcode_lx hp (by decide) (Lx.ch .rparen ')' rfl rfl (Lx.sp1 ?_))
      exact hB1 r ts hl
    · intro n ss o ts hts
      refine ⟨by simp, ?_⟩
      simp only [List.append_assoc, List.cons_append]
      refine .head (o1 := .head "if".toList :: .blk n ss :: o) (i1 := []) (t1 := c'.dtoks ++ .p .rparen :: (B ++ ts)) rfl ?_
      refine (lift_ex (by exact trivial) (dex_parse hp (t := .p .rparen) rfl _)).trans ?_
      refine .head (o1 := .ifh c' :: .blk n ss :: o) (i1 := []) (t1 := B ++ ts) rfl ?_
      refine (hB2 _ (newTop_ifh _ _) ts).trans ?_
      refine .head (o1 := .st (.ifs c' (.block none T) .skip) :: .blk n ss :: o) (i1 := []) (t1 := ts) ?_ (.one rfl)
      simp only [sstep, reduceStmt]
      cases ts with
      | nil => rfl
      | cons t0 ts =>
        cases t0 with
        | kw w =>
          have : w ≠ "else".toList := by rintro rfl; exact hts rfl
          simp only [if_neg this, Stmt.hasEnd, if_true]
        | _ => rfl
  | two c t f c' T F hm hp _ hf _ iht ihf =>
    obtain ⟨tc, h1, h2⟩ := iht
    obtain ⟨fc, g1, g2⟩ := ihf
    refine ⟨_, hbranch hm hp h1 g1, ?_⟩
    obtain ⟨B, hB1, hB2⟩ := block_reads h2
    obtain ⟨B', hB1', hB2'⟩ := block_reads g2
    refine ⟨.kw "if".toList :: .p .lparen :: (c'.dtoks ++ .p .rparen :: (B ++ .kw "else".toList :: B')), ?_, ?_⟩
    · intro r ts hl
      simp only [if_neg hf, text_begin, btext_if, btext_else, List.append_assoc, List.cons_append, List.nil_append]
      refine Lx.word "if" (by decide +kernel) (c := '(') (by decide) (Lx.ch .lparen '(' rfl rfl ?_)
      refine dcode_lx hp (by decide) (Lx.ch .rparen ')' rfl rfl (Lx.sp1 ?_))
      have h3 := hB1' r ts hl
      have h4 := hB1 ("else".toList ++ ' ' :: ("begin\n".toList ++ (fc ++ ("end\n".toList ++ r)))) (.kw "else".toList :: (B' ++ ts))
        (Lx.word "else" (by decide +kernel) (c := ' ') (by decide) (Lx.sp1 h3))
      exact h4
    · intro n ss o ts hts
      refine ⟨by simp, ?_⟩
      simp only [List.append_assoc, List.cons_append]
      refine .head (o1 := .head "if".toList :: .blk n ss :: o) (i1 := []) (t1 := c'.dtoks ++ .p .rparen :: (B ++ .kw "else".toList :: (B' ++ ts))) rfl ?_
      refine (lift_ex (by exact trivial) (dex_parse hp (t := .p .rparen) rfl _)).trans ?_
      refine .head (o1 := .ifh c' :: .blk n ss :: o) (i1 := []) (t1 := B ++ .kw "else".toList :: (B' ++ ts)) rfl ?_
      refine (hB2 _ (newTop_ifh _ _) _).trans ?_
      refine .head (o1 := .els c' (.block none T) :: .blk n ss :: o) (i1 := []) (t1 := B' ++ ts) rfl ?_
      refine (hB2' _ (newTop_els _ _ _) ts).trans ?_
      exact .head (o1 := .st (.ifs c' (.block none T) (.block none F)) :: .blk n ss :: o) (i1 := []) (t1 := ts) rfl (.one rfl)

/-! ## Items -/

/-- The text of a module item, and how it is read in the body of a module. -/
def ItemReads (c : Str) (i : MItem) : Prop :=
  ∃ T : List Tok, (∀ r ts, Lx r ts → Lx (c ++ r) (T ++ ts)) ∧
    ∀ (n : Str) (ps : List (List Param)) (ports : List PortD) (is : List MItem) (m : List MSym) (ts : List Tok),
      MSt (bodyAt n ps ports is m (T ++ ts)) (bodyAt n ps ports (is ++ [i]) m ts)

theorem param_reads {n : Str} {e : Ex} (hn : PlainId n) (he : e.Plain) (loc : Bool) :
    ItemReads ((if loc then "localparam".toList else "parameter".toList) ++ " ".toList ++ n ++ " = ".toList ++ e.dcode ++ ";\n".toList)
      (.decl [.param loc ⟨n, e, none, false⟩]) := by
  refine ⟨.kw (if loc then "localparam".toList else "parameter".toList) :: .id n :: .p .equals :: (e.dtoks ++ [.p .semicolon]), ?_, ?_⟩
  · intro r ts hl
    have h1 := asg_lx (D := .ident [] n) ⟨rfl, hn⟩ he false hl
    simp only [Ex.dcode, Ex.dtoks, asgPun, Bool.false_eq_true, if_false, List.cons_append, List.nil_append] at h1
    cases loc <;> simp only [if_true, Bool.false_eq_true, if_false, List.append_assoc, List.cons_append, List.nil_append]
    · exact Lx.word "parameter" (by decide +kernel) (c := ' ') (by decide) (Lx.sp1 h1)
    · exact Lx.word "localparam" (by decide +kernel) (c := ' ') (by decide) (Lx.sp1 h1)
  · intro nm ps ports is m ts
    simp only [List.append_assoc, List.cons_append, List.nil_append]
    refine .head (y := at' (.pdecl loc false true none [] :: .body nm ps ports is :: m) (.id n :: .p .equals :: (e.dtoks ++ .p .semicolon :: ts))) ?_ ?_
    · cases loc <;> rfl
    · refine .head (y := at' (.pval loc false none [] n :: .body nm ps ports is :: m) (e.dtoks ++ .p .semicolon :: ts)) rfl ?_
      exact (lift_mex (x := .pval loc false none [] n) trivial _ (dex_parse he (t := .p .semicolon) rfl ts)).trans (.one rfl)

theorem dassign_reads {D e : Ex} (hD : IsTarget D) (he : e.Plain) :
    ItemReads ("assign".toList ++ " ".toList ++ D.dcode ++ " = ".toList ++ e.dcode ++ ";\n".toList) (.assign D e) := by
  refine ⟨.kw "assign".toList :: (D.dtoks ++ .p .equals :: (e.dtoks ++ [.p .semicolon])), ?_, ?_⟩
  · intro r ts hl
    have h1 := asg_lx hD.1 he false hl
    simp only [asgPun, Bool.false_eq_true, if_false] at h1
    simp only [List.append_assoc, List.cons_append, List.nil_append]
    exact Lx.word "assign" (by decide +kernel) (c := ' ') (by decide) (Lx.sp1 h1)
  · intro nm ps ports is m ts
    simp only [List.append_assoc, List.cons_append, List.nil_append]
    refine .head (y := (.asn :: .body nm ps ports is :: m, [.lhs], [], D.dtoks ++ .p .equals :: (e.dtoks ++ .p .semicolon :: ts))) rfl ?_
    refine (lift_stmt (.inr rfl) _ (dasg_parse hD he false (o := []) (by intro _ _; simp) (t := .p .semicolon) rfl ts)).trans ?_
    exact .head (y := (.asn :: .body nm ps ports is :: m, [.st (.ba D e)], [], ts)) rfl (.one rfl)

theorem plain_oneLine {s : Str} (h : PlainId s) : OneLine s := by
  have hb : ∀ c : Char, isIdChar c = true → isBreak c = false := by
    intro c hc
    have h1 : 36 ≤ c.val.toNat ∧ c.val.toNat ≤ 122 := by
      simp only [isIdChar, isLet, isDig, Bool.or_eq_true, Bool.and_eq_true, decide_eq_true_eq, beq_iff_eq, Char.le_def, UInt32.le_iff_toNat_le] at hc
      have e1 : 'a'.val.toNat = 97 := rfl
      have e2 : 'z'.val.toNat = 122 := rfl
      have e3 : 'A'.val.toNat = 65 := rfl
      have e4 : 'Z'.val.toNat = 90 := rfl
      have e5 : '0'.val.toNat = 48 := rfl
      have e6 : '9'.val.toNat = 57 := rfl
      have e7 : '_'.val.toNat = 95 := rfl
      have e8 : '$'.val.toNat = 36 := rfl
      rcases hc with ((hc | rfl) | hc) | rfl <;> omega
    have hne : ∀ k : UInt32, k.toNat < 36 ∨ 122 < k.toNat → c.val ≠ k := by
      rintro k hk rfl; omega
    simp only [isBreak, Bool.or_eq_false_iff, beq_eq_false_iff_ne, Bool.and_eq_false_iff, decide_eq_false_iff_not, ne_eq, UInt32.le_iff_toNat_le]
    refine ⟨⟨⟨⟨⟨⟨⟨?_, ?_⟩, hne _ (by decide)⟩, hne _ (by decide)⟩, .inr ?_⟩, hne _ (by decide)⟩, hne _ (by decide)⟩, hne _ (by decide)⟩
    · rintro rfl; exact absurd h1.1 (by decide)
    · rintro rfl; exact absurd h1.1 (by decide)
    · have : (0x1e : UInt32).toNat = 30 := rfl
      omega
  obtain ⟨⟨c, t, rfl, h1, h2⟩, _⟩ := h
  intro x hx
  rcases List.mem_cons.mp hx with rfl | hx
  · refine hb x ?_
    simp only [isIdStart, Bool.or_eq_true] at h1
    simp only [isIdChar, Bool.or_eq_true]
    tauto
  · exact hb x (h2 x hx)

theorem EdgeItem.ok {e : Option Str} {n : Option ScopeChain} {ss : List SensItem} (h : EdgeItem e n ss) :
    ∃ s w x, ss = [s] ∧ s.EdgeOK ∧ s.erase = s ∧ e = some w ∧ n = some x ∧ w ∈ reservedWords ∧ PlainId x.tocode ∧
      s.toks = [.kw w, .id x.tocode] := by
  have hp : ∀ x : ScopeChain, PlainId x.tocode → (Ex.ident [] x.tocode).Printable ∧ (Ex.ident [] x.tocode).erase = .ident [] x.tocode := by
    intro x hx
    have hn : IsName x.tocode := Or.inl hx
    exact ⟨⟨by simpa [Ex.WF] using hn, by simp [Ex.Leaves]; exact plain_oneLine hx⟩, rfl⟩
  cases h with
  | pos x hx =>
    exact ⟨_, _, x, rfl, ⟨(hp x hx).1, rfl⟩, by simp only [SensItem.erase, (hp x hx).2], rfl, rfl, by decide +kernel, hx, rfl⟩
  | neg x hx =>
    exact ⟨_, _, x, rfl, ⟨(hp x hx).1, rfl⟩, by simp only [SensItem.erase, (hp x hx).2], rfl, rfl, by decide +kernel, hx, rfl⟩

theorem text_at : "always @(".toList = "always".toList ++ ' ' :: '@' :: ['('] := rfl
theorem text_atstar : "always @*".toList = "always".toList ++ ' ' :: '@' :: ['*'] := rfl
theorem text_spbegin : " begin\n".toList = ' ' :: "begin\n".toList := rfl
theorem text_or : " or ".toList = ' ' :: ("or".toList ++ [' ']) := rfl

theorem comb_reads {c : Str} {S : List Stmt} (h : StmtsRead c S) :
    ItemReads ("always @*".toList ++ " begin\n".toList ++ c ++ "end\n".toList ++ "\n".toList) (.always .always [.all] (.block none S)) := by
  obtain ⟨B, h1, h2⟩ := block_reads h
  refine ⟨.kw "always".toList :: .p .at :: .p .times :: B, ?_, ?_⟩
  · intro r ts hl
    simp only [text_atstar, text_spbegin, List.append_assoc, List.cons_append, List.nil_append]
    refine Lx.word "always" (by decide +kernel) (c := ' ') (by decide) (Lx.sp1 (Lx.ch .at '@' rfl rfl ?_))
    refine Lx.pun .times (r := ' ' :: ("begin\n".toList ++ (c ++ ("end\n".toList ++ ("\n".toList ++ r))))) ?_ (Lx.sp1 (h1 _ _ (Lx.nl hl)))
    intro x hx
    simp at hx; subst hx; decide
  · intro n ps ports is m ts
    simp only [List.cons_append]
    refine .head (y := (.alw .always [.all] :: .body n ps ports is :: m, [], [], B ++ ts)) rfl ?_
    exact (lift_stmt (x := .alw .always [.all]) (.inl trivial) _ (h2 [] newTop_nil ts)).trans (.one rfl)

theorem sensToks_or (a b : SensItem) : sensToks [a, b] = a.toks ++ .kw "or".toList :: b.toks := by
  simp [sensToks]

theorem clocked_reads {c : Str} {S : List Stmt} (h : StmtsRead c S) {a : AlwaysInfo} {ck rs : List SensItem}
    (hc : EdgeItem a.clockEdge a.clockName ck) (hr : a.resetName = none ∧ rs = [] ∨ EdgeItem a.resetEdge a.resetName rs) :
    ItemReads ("always @(".toList ++ a.codeSens ++ ") begin\n".toList ++ c ++ "end\n".toList ++ "\n".toList)
      (.always .always (ck ++ rs) (.block none S)) := by
  obtain ⟨B, h1, h2⟩ := block_reads h
  have hid : ∀ (x : Str), PlainId x → ∀ (d : Char) (r : Str) (ts : List Tok),
      (isIdChar d = false ∧ d ≠ '\'' ∧ d ≠ '.' ∧ d ≠ '?') → Lx (d :: r) ts → Lx (x ++ d :: r) (.id x :: ts) := by
    intro x hx d r ts hd hl
    exact dcode_lx (e := .ident [] x) ⟨rfl, hx⟩ hd hl
  have hedge : ∀ (w x : Str), w ∈ reservedWords → PlainId x → ∀ (d : Char) (r : Str) (ts : List Tok),
      (isIdChar d = false ∧ d ≠ '\'' ∧ d ≠ '.' ∧ d ≠ '?') → Lx (d :: r) ts → Lx (w ++ ' ' :: (x ++ d :: r)) (.kw w :: .id x :: ts) := by
    intro w x hw hx d r ts hd hl
    refine Lx.kw hw ?_ (Lx.sp1 (hid x hx d r ts hd hl))
    intro c hc; simp at hc; subst hc; decide
  -- the sensitivity list
  have hsens : SensOK (ck ++ rs) ∧ (ck ++ rs).map SensItem.erase = ck ++ rs ∧
      ∀ (r : Str) (ts : List Tok), Lx (')' :: r) ts → Lx (a.codeSens ++ ')' :: r) (sensToks (ck ++ rs) ++ ts) := by
    obtain ⟨s, w, x, rfl, hs, he, e1, e2, hw, hx, ht⟩ := hc.ok
    rcases hr with ⟨hrn, rfl⟩ | hr
    · refine ⟨.inr (.inl ⟨by simp, by simpa using hs⟩), by simp [he], ?_⟩
      intro r ts hl
      have hcode : a.codeSens = w ++ " ".toList ++ x.tocode := by
        unfold AlwaysInfo.codeSens
        rw [e1, e2, hrn]
        cases a.resetEdge <;> simp
      rw [hcode]
      simp only [List.append_nil, sensToks, ht, List.append_assoc, List.cons_append, List.nil_append]
      exact hedge w x.tocode hw hx ')' r ts (by decide) hl
    · obtain ⟨s', w', x', rfl, hs', he', g1, g2, hw', hx', ht'⟩ := hr.ok
      refine ⟨.inr (.inl ⟨by simp, by simp [hs, hs']⟩), by simp [he, he'], ?_⟩
      intro r ts hl
      have hcode : a.codeSens = w ++ " ".toList ++ x.tocode ++ (" or ".toList ++ w' ++ " ".toList ++ x'.tocode) := by
        unfold AlwaysInfo.codeSens
        rw [e1, e2, g1, g2]
      rw [hcode]
      simp only [List.cons_append, List.nil_append, sensToks_or, ht, ht', text_or, List.append_assoc]
      refine hedge w x.tocode hw hx ' ' _ _ (by decide) (Lx.sp1 ?_)
      refine Lx.word "or" (by decide +kernel) (c := ' ') (by decide) (Lx.sp1 ?_)
      exact hedge w' x'.tocode hw' hx' ')' r ts (by decide) hl
  obtain ⟨hok, herase, hlex⟩ := hsens
  refine ⟨.kw "always".toList :: .p .at :: .p .lparen :: (sensToks (ck ++ rs) ++ .p .rparen :: B), ?_, ?_⟩
  · intro r ts hl
    simp only [text_at, text_begin, List.append_assoc, List.cons_append, List.nil_append]
    refine Lx.word "always" (by decide +kernel) (c := ' ') (by decide) (Lx.sp1 (Lx.ch .at '@' rfl rfl (Lx.ch .lparen '(' rfl rfl ?_)))
    refine hlex _ _ (Lx.ch .rparen ')' rfl rfl (Lx.sp1 ?_))
    exact h1 _ _ (Lx.nl hl)
  · intro n ps ports is m ts
    simp only [List.append_assoc, List.cons_append]
    obtain ⟨y, hy1, hy2⟩ := senslist_read hok .always (.body n ps ports is :: m) (B ++ ts)
    rw [herase] at hy2
    refine .head (y := y) (by exact hy1) (hy2.trans ?_)
    exact (lift_stmt (x := .alw .always (ck ++ rs)) (.inl trivial) _ (h2 [] newTop_nil ts)).trans (.one rfl)

/-- The text of an assignment is that of an item that makes it. -/
theorem bind_reads {b : Bind} {i : MItem} (h : BindMeans b i) : ∃ c, b.tocode = .ok c ∧ ItemReads c i := by
  have hcode : ∀ {D : Ex} {t e}, Means (some D) t e → e.Plain → t.tocode D.dcode = .ok e.dcode := by
    intro D t e h hp
    exact means_code (fun x hx => by simp only [Option.some.injEq] at hx; rw [hx]) t e h hp
  have hdest : b.target = .term b.dest → PlainId b.dest.tocode → b.getdest = .ok b.dest.tocode := by
    intro ht hp
    exact getdest_eq (D := .ident [] b.dest.tocode) (by rw [ht]; exact .term _) ⟨rfl, hp⟩
  cases h with
  | param e hpar ht hn hm hp =>
    refine ⟨_, ?_, param_reads hn hp false⟩
    simp only [Bind.tocode, hpar, if_true, Bind.codeAssign, hdest ht hn, ok_bind]
    rw [show b.tree.tocode b.dest.tocode = .ok e.dcode from hcode hm hp]
    rfl
  | localparam e hpar ht hn hm hp =>
    refine ⟨_, ?_, param_reads hn hp true⟩
    have hne : "localparam".toList ≠ "parameter".toList := by decide
    simp only [Bind.tocode, hpar, if_neg hne, if_true, Bind.codeAssign, hdest ht hn, ok_bind]
    rw [show b.tree.tocode b.dest.tocode = .ok e.dcode from hcode hm hp]
    rfl
  | assign D e h1 h2 ha hD hDp hm hp =>
    refine ⟨_, ?_, dassign_reads (target_is hD hDp) hp⟩
    simp only [Bind.tocode, if_neg h1, if_neg h2, ha, Bind.codeAssign, getdest_eq hD hDp, hcode hm hp, ok_bind]
  | comb D S a h1 h2 ha hck htr hD hDp hw =>
    obtain ⟨c, hc, hs⟩ := writes_reads (target_is hD hDp) hw
    refine ⟨_, ?_, comb_reads hs⟩
    simp only [Bind.tocode, if_neg h1, if_neg h2, ha, hck, Option.isNone_none, if_true, Bind.codeComb, getdest_eq hD hDp, ok_bind,
      Bind.codeBody, if_neg htr, hc]
  | clocked D S a ck rs h1 h2 ha htr hck hrs hD hDp hw =>
    obtain ⟨c, hc, hs⟩ := writes_reads (target_is hD hDp) hw
    refine ⟨_, ?_, clocked_reads hs hck hrs⟩
    obtain ⟨_, _, x, _, _, _, _, hx, _⟩ := hck.ok
    simp only [Bind.tocode, if_neg h1, if_neg h2, ha, hx, Option.isNone_some, Bool.false_eq_true, if_false, Bind.codeClocked,
      getdest_eq hD hDp, ok_bind, Bind.codeBody, if_neg htr, hc]

/-- Items in the body of a module. -/
theorem items_read {cs : List Str} {is : List MItem} (h : List.Forall₂ ItemReads cs is) :
    ∃ T : List Tok, (∀ r ts, Lx r ts → Lx (cs.flatten ++ r) (T ++ ts)) ∧
      ∀ (n : Str) (ps : List (List Param)) (ports : List PortD) (js : List MItem) (m : List MSym) (ts : List Tok),
        MSt (bodyAt n ps ports js m (T ++ ts)) (bodyAt n ps ports (js ++ is) m ts) := by
  induction h with
  | nil => exact ⟨[], fun r ts h => h, fun n ps ports js m ts => by simpa using MSt.refl⟩
  | @cons c i cs is h1 _ ih =>
    obtain ⟨T1, a1, a2⟩ := h1
    obtain ⟨T2, b1, b2⟩ := ih
    refine ⟨T1 ++ T2, ?_, ?_⟩
    · intro r ts hl
      simp only [List.flatten_cons, List.append_assoc]
      exact a1 _ _ (b1 _ _ hl)
    · intro n ps ports js m ts
      simp only [List.append_assoc]
      refine (a2 n ps ports js m _).trans ?_
      have := b2 n ps ports (js ++ [i]) m ts
      simpa using this

/-- A module around the texts of items. -/
def moduleText (n : Str) (cs : List Str) : Str := "module ".toList ++ n ++ ";\n".toList ++ cs.flatten ++ "endmodule\n".toList

theorem btext_semi : ";\n".toList = [';', '\n'] := rfl
theorem text_module : "module ".toList = "module".toList ++ [' '] := rfl
theorem text_endmodule : "endmodule\n".toList = "endmodule".toList ++ ['\n'] := rfl

theorem lx_module {r : Str} {ts : List Tok} (h : Lx r ts) : Lx ("module".toList ++ ' ' :: r) (.kw "module".toList :: ts) :=
  Lx.word "module" (by decide +kernel) (c := ' ') (by decide) (Lx.sp1 h)

theorem lx_endmodule : Lx ("endmodule".toList ++ ['\n']) [.kw "endmodule".toList] :=
  Lx.word "endmodule" (by decide +kernel) (c := '\n') (by decide) (Lx.nl .nil)

theorem moduleText_lx {n : Str} (hn : PlainId n) {c : Str} {T : List Tok} (h1 : ∀ r ts, Lx r ts → Lx (c ++ r) (T ++ ts)) :
    Lx ("module ".toList ++ n ++ ";\n".toList ++ c ++ "endmodule\n".toList)
      (.kw "module".toList :: .id n :: .p .semicolon :: (T ++ [.kw "endmodule".toList])) := by
  have h3 := h1 _ _ lx_endmodule
  rw [text_module, btext_semi, text_endmodule]
  generalize "endmodule".toList ++ ['\n'] = E at h3 ⊢
  generalize Tok.kw "endmodule".toList = K at h3 ⊢
  have h4 : Lx (';' :: '\n' :: (c ++ E)) (.p .semicolon :: (T ++ [K])) := Lx.ch .semicolon ';' rfl rfl (Lx.nl h3)
  have h5 : Lx (n ++ ';' :: '\n' :: (c ++ E)) (.id n :: .p .semicolon :: (T ++ [K])) :=
    dcode_lx (e := .ident [] n) ⟨rfl, hn⟩ (c := ';') (by decide) h4
  have h6 := lx_module h5
  rw [show "module".toList ++ [' '] ++ n ++ [';', '\n'] ++ c ++ E = "module".toList ++ ' ' :: (n ++ ';' :: '\n' :: (c ++ E)) by
    simp only [List.append_assoc, List.cons_append, List.nil_append]]
  exact h6

theorem moduleText_parses {n : Str} (hn : PlainId n) {cs : List Str} {is : List MItem} (h : List.Forall₂ ItemReads cs is) :
    SourceParsesTo (moduleText n cs) [⟨n, [], [], is⟩] := by
  obtain ⟨T, h1, h2⟩ := items_read h
  have hl : Lx (moduleText n cs) (.kw "module".toList :: .id n :: .p .semicolon :: (T ++ [Tok.kw "endmodule".toList])) := by
    unfold moduleText
    exact moduleText_lx hn h1
  refine ⟨_, hl.toLex, ?_⟩
  refine MSt.parse (x := at' [.defs []] _) (ms := [⟨n, [], [], is⟩]) ?_ (by simp)
  refine .head (y := at' (.mod n none :: [.defs []]) (.p .semicolon :: (T ++ [.kw "endmodule".toList]))) rfl ?_
  refine .head (y := bodyAt n [] [] [] [.defs []] (T ++ [.kw "endmodule".toList])) rfl ?_
  refine (h2 n [] [] [] [.defs []] [.kw "endmodule".toList]).trans (.one ?_)
  rfl

/-- **C78** (part): the texts of assignments, placed in a module, are read by the parser as the items that make these
assignments.  Missing: assignments whose trees stand for no `Plain` expression (see C63), and the counterexamples below. -/
theorem C78_reads_partial (n : Str) (hn : PlainId n) (bs : List Bind) (is : List MItem) (h : List.Forall₂ BindMeans bs is) :
    ∃ cs, bs.mapM Bind.tocode = .ok cs ∧ SourceParsesTo (moduleText n cs) [⟨n, [], [], is⟩] := by
  have : ∃ cs, List.Forall₂ (fun b c => Bind.tocode b = .ok c) bs cs ∧ List.Forall₂ ItemReads cs is := by
    induction h with
    | nil => exact ⟨[], .nil, .nil⟩
    | cons h1 _ ih =>
      obtain ⟨cs, a, b⟩ := ih
      obtain ⟨c, hc, hr⟩ := bind_reads h1
      exact ⟨c :: cs, .cons hc a, .cons hr b⟩
  obtain ⟨cs, h1, h2⟩ := this
  exact ⟨cs, mapM_ok.mpr h1, moduleText_parses hn h2⟩

end Pyv
