import Verif.Props.StmtRound
import Verif.Props.ModulePrint
import Verif.ModuleParser
/-
  The parser reads the tokens of printed modules.
-/
namespace Pyv

/-- A state of the parser. -/
abbrev MS := List MSym × List OSym × List Sym × List Tok

/-- The next state. -/
def mnext (x : MS) : Option MS := mstep x.1 x.2.1 x.2.2.1 x.2.2.2

/-- The actions of the parser. -/
inductive MSt : MS → MS → Prop
  | refl {x} : MSt x x
  | head {x y z} : mnext x = some y → MSt y z → MSt x z

theorem MSt.trans {x y z : MS} (h : MSt x y) (h2 : MSt y z) : MSt x z := by
  induction h with
  | refl => exact h2
  | head h _ ih => exact .head h (ih h2)

theorem MSt.one {x y : MS} (h : mnext x = some y) : MSt x y := .head h .refl

/-- Outside of statements and expressions. -/
abbrev at' (m : List MSym) (ts : List Tok) : MS := (m, [], [], ts)

/-- A symbol above which an expression is read. -/
def MExTop : MSym → Prop
  | .wid1 | .wid2 _ | .sigV _ _ _ | .intV _ _ | .pval _ _ _ _ _ | .parg _ _ _ | .iport _ _ _ _ _ _ _ _ => True
  | _ => False

theorem mnext_inner {x : MSym} (hx : MExTop x) (m : List MSym) {i : List Sym} {ts : List Tok}
    (h : ∀ e t ts', i = [.ex e] → ts = t :: ts' → t.ends = false) : mnext (x :: m, [], i, ts) = mInner (x :: m) i ts := by
  have hno : ∀ e k ts', isTerm (.tok (.p k)) = true → i = [.ex e] → ts = .p k :: ts' → False := by
    intro e k ts' hk h1 h2
    have := h e _ _ h1 h2
    unfold Tok.ends at this
    rw [hk] at this; simp at this
  cases x <;> first | exact hx.elim | skip
  all_goals
    simp only [mnext, mstep, stepWid1, stepWid2, stepSigV, stepIntV, stepPval, stepParg, stepIport]
    repeat' split
    all_goals first | rfl | exact (hno _ _ _ rfl rfl rfl).elim

/-- An expression up to a terminator. -/
theorem lift_mex {x : MSym} (hx : MExTop x) (m : List MSym) {i : List Sym} {ts : List Tok} {e : Ex} {ts' : List Tok}
    (h : St i ts [.ex e] ts') : MSt (x :: m, [], i, ts) (x :: m, [], [.ex e], ts') := by
  generalize hf : [Sym.ex e] = f at h
  induction h with
  | refl => exact .refl
  | @head s t s1 t1 s2 t2 h hr ih =>
    subst hf
    by_cases hq : ∀ e t' ts', s = [.ex e] → t = t' :: ts' → t'.ends = false
    · exact .head (y := (x :: m, [], s1, t1)) (by rw [mnext_inner hx m hq, mInner, h]; rfl) (ih rfl)
    · exfalso
      simp only [not_forall] at hq
      obtain ⟨e', t', ts', rfl, rfl, ht⟩ := hq
      have ht : t'.ends = true := by simpa using ht
      simp only [step, stepEx, shift, Option.some.injEq, Prod.mk.injEq] at h
      obtain ⟨Y, hY⟩ := St.term hr ht (e0 := e') ⟨[], by rw [← h.1]; rfl⟩
      have := congrArg List.length hY
      simp at this

theorem mread {x : MSym} (hx : MExTop x) (m : List MSym) {e : Ex} (h : e.WF) {t : Tok} (ht : t.ends = true) (ts : List Tok) :
    MSt (at' (x :: m) (e.itoks ++ t :: ts)) (x :: m, [], [.ex e.erase], t :: ts) := lift_mex hx m (ex_parse h ht ts)

/-- A symbol above which a statement is read. -/
def MStTop : MSym → Prop
  | .alw _ _ | .ini | .fnB _ _ _ => True
  | _ => False

theorem lift_stmt {x : MSym} (hx : MStTop x ∨ x = .asn) (m : List MSym) {o i ts o2 i2 ts2} (h : SSt o i ts o2 i2 ts2) :
    MSt (x :: m, o, i, ts) (x :: m, o2, i2, ts2) := by
  induction h with
  | refl => exact .refl
  | @head o i t o1 i1 t1 o2 i2 t2 h _ ih =>
    have hne : ∀ s, o = [.st s] → False := by
      rintro s rfl
      simp [sstep, reduceStmt] at h
    refine .head (y := (x :: m, o1, i1, t1)) ?_ ih
    rcases hx with hx | rfl
    · cases x <;> first | exact hx.elim | skip
      · simp only [mnext, mstep, stepAlw]
        split
        · exact (hne _ rfl).elim
        · rw [h]; rfl
      · simp only [mnext, mstep, stepIni]
        split
        · exact (hne _ rfl).elim
        · rw [h]; rfl
      · simp only [mnext, mstep, stepFnB]
        split
        · exact (hne _ rfl).elim
        · rw [h]; rfl
    · simp only [mnext, mstep, stepAsn]
      split
      · exact (hne _ rfl).elim
      · rw [h]; rfl

/-! ## Ranges -/

theorem rng_read {m : List MSym} {r : WRange} (h : RngOK r) {ts : List Tok} {x : MS} (hg : giveRange (rngErase r) m ts = some x)
    (hm : ∀ ts', mnext (at' m (.p .lbracket :: ts')) = go (.wid1 :: m) ts') : MSt (at' m (rngToks r ++ ts)) x := by
  simp only [rngToks, List.append_assoc, List.cons_append, List.nil_append]
  refine .head (hm _) ((mread (x := .wid1) trivial m h.1.1.1 (t := .p .colon) rfl _).trans ?_)
  refine .head (y := at' (.wid2 r.1.erase :: m) (r.2.itoks ++ .p .rbracket :: ts)) rfl ?_
  exact (mread (x := .wid2 r.1.erase) trivial m h.2.1.1 (t := .p .rbracket) rfl ts).trans (.one hg)

theorem sigN_dims (ws : List Str) (wd : Option WRange) (done : List (Str × Option (List WRange))) (n : Str) (m : List MSym) (ls : List WRange)
    (h : ∀ r ∈ ls, RngOK r) (ts : List Tok) : ∀ d : Option (List WRange), ls ≠ [] ∨ d ≠ none →
    MSt (at' (.sigN ws wd done n d :: m) (ls.flatMap rngToks ++ ts)) (at' (.sigN ws wd done n (some (d.getD [] ++ ls.map rngErase)) :: m) ts) := by
  induction ls with
  | nil =>
    intro d hd
    cases d with
    | none => simp at hd
    | some d => simp only [List.flatMap_nil, List.nil_append, Option.getD_some, List.map_nil, List.append_nil]; exact .refl
  | cons r ls ih =>
    intro d _
    simp only [List.flatMap_cons, List.append_assoc]
    refine (rng_read (h r (by simp)) (x := at' (.sigN ws wd done n (some (d.getD [] ++ [rngErase r])) :: m) (ls.flatMap rngToks ++ ts)) rfl (fun _ => rfl)).trans ?_
    have := ih (fun r hr => h r (by simp [hr])) (some (d.getD [] ++ [rngErase r])) (.inr (by simp))
    simpa only [Option.getD_some, List.append_assoc, List.cons_append, List.nil_append, List.map_cons] using this

theorem ioN_dims (ps : List PortD) (ws : List Str) (wd : WRange) (n : Str) (m : List MSym) (ls : List WRange)
    (h : ∀ r ∈ ls, RngOK r) (ts : List Tok) : ∀ d : Option (List WRange), ls ≠ [] ∨ d ≠ none →
    MSt (at' (.ioN ps ws (some wd) n d :: m) (ls.flatMap rngToks ++ ts)) (at' (.ioN ps ws (some wd) n (some (d.getD [] ++ ls.map rngErase)) :: m) ts) := by
  induction ls with
  | nil =>
    intro d hd
    cases d with
    | none => simp at hd
    | some d => simp only [List.flatMap_nil, List.nil_append, Option.getD_some, List.map_nil, List.append_nil]; exact .refl
  | cons r ls ih =>
    intro d _
    simp only [List.flatMap_cons, List.append_assoc]
    refine (rng_read (h r (by simp)) (x := at' (.ioN ps ws (some wd) n (some (d.getD [] ++ [rngErase r])) :: m) (ls.flatMap rngToks ++ ts)) rfl (fun _ => rfl)).trans ?_
    have := ih (fun r hr => h r (by simp [hr])) (some (d.getD [] ++ [rngErase r])) (.inr (by simp))
    simpa only [Option.getD_some, List.append_assoc, List.cons_append, List.nil_append, List.map_cons] using this

/-! ## Declarations -/

/-- The words of a declared signal. -/
def Var.words (v : Var) : List Str := v.kind.word :: (if v.signed then ["signed".toList] else [])

theorem sigWord (k : SigKind) : k.word ∈ sigWords ∧ k.word ≠ "endmodule".toList := by cases k <;> decide

theorem createDecl_var (k : SigKind) (sg : Bool) (wd : Option WRange) (n : Str) (d : Option (List WRange)) :
    createDecl (k.word :: (if sg then ["signed".toList] else [])) wd n d = some [.var ⟨k, n, wd, sg, d⟩] := by
  cases k <;> cases sg <;> rfl

/-- The words an item of a module begins with. -/
def itemWords : List Str := sigWords ++ ["integer".toList, "genvar".toList, "parameter".toList, "localparam".toList, "assign".toList,
  "initial".toList, "function".toList, "task".toList, "always".toList]

/-- The first token of an item of a module. -/
def StdTok : Tok → Prop
  | .id _ => True
  | .kw w => w ∈ itemWords
  | _ => False

/-- Where items of a module are read. -/
def StdCtx (K : List MSym) : Prop := ∀ t ts, StdTok t → mnext (at' K (t :: ts)) = stdItem K (t :: ts)

/-- Where declarations of signals and integers are read. -/
def DeclCtx (K : List MSym) : Prop :=
  (∀ (k : SigKind) ts, mnext (at' K (.kw k.word :: ts)) = go (.sig [k.word] none [] :: K) ts) ∧
    ∀ ts, mnext (at' K (.kw "integer".toList :: ts)) = go (.ints [] :: K) ts

theorem StdCtx.decl {K : List MSym} (h : StdCtx K) : DeclCtx K := by
  refine ⟨fun k ts => ?_, fun ts => ?_⟩
  · rw [h _ _ (List.mem_append_left _ (sigWord k).1)]
    simp only [stdItem, if_pos (sigWord k).1]
  · rw [h _ _ (by show _ ∈ itemWords; decide)]
    rfl

/-- Where items are read. -/
abbrev bodyAt (n : Str) (ps : List (List Param)) (ports : List PortD) (is : List MItem) (m : List MSym) (ts : List Tok) : MS :=
  at' (.body n ps ports is :: m) ts

theorem itemWords_body : ∀ w ∈ itemWords, w ≠ "endmodule".toList ∧ w ≠ "generate".toList := by decide +kernel

theorem body_std (n : Str) (ps : List (List Param)) (ports : List PortD) (is : List MItem) (m : List MSym) : StdCtx (.body n ps ports is :: m) := by
  intro t ts ht
  cases t with
  | kw w => simp only [mnext, mstep, stepBody, if_neg (itemWords_body w ht).1, if_neg (itemWords_body w ht).2]
  | _ => rfl

theorem var_read {v : Var} (h : v.OK) {K : List MSym} (hK : DeclCtx K) {ts : List Tok} {y : MS}
    (hy : addItem (.decl [.var v.erase]) K ts = some y) : MSt (at' K (v.toks ++ ts)) y := by
  obtain ⟨k, nm, wd, sg, d⟩ := v
  obtain ⟨hn, hw, hd⟩ := h
  simp only at hn hw hd
  simp only [Var.toks, List.append_assoc, List.cons_append, List.nil_append]
  refine .head (y := at' (.sig [k.word] none [] :: K) (signedToks sg ++ (widthToks wd ++ .id nm :: (dimsToks d ++ .p .semicolon :: ts)))) (hK.1 _ _) ?_
  refine MSt.trans (y := at' (.sig (k.word :: (if sg then ["signed".toList] else [])) none [] :: K) (widthToks wd ++ .id nm :: (dimsToks d ++ .p .semicolon :: ts))) ?_ ?_
  · cases sg with
    | false => exact .refl
    | true => exact .one (by simp [mnext, mstep, stepSig, go, signedToks]; decide)
  generalize hws : (k.word :: (if sg then ["signed".toList] else [])) = ws
  refine MSt.trans (y := at' (.sig ws (wd.map rngErase) [] :: K) (.id nm :: (dimsToks d ++ .p .semicolon :: ts))) ?_ ?_
  · cases wd with
    | none => exact .refl
    | some r => exact rng_read (hw r rfl) rfl (fun _ => rfl)
  refine .head (y := at' (.sigN ws (wd.map rngErase) [] nm none :: K) (dimsToks d ++ .p .semicolon :: ts)) rfl ?_
  refine MSt.trans (y := at' (.sigN ws (wd.map rngErase) [] nm (d.map (List.map rngErase)) :: K) (.p .semicolon :: ts)) ?_ ?_
  · cases d with
    | none => exact .refl
    | some ls =>
      have := sigN_dims ws (wd.map rngErase) [] nm K ls (hd ls rfl).2 (.p .semicolon :: ts) none (.inl (hd ls rfl).1)
      rw [Option.getD_none, List.nil_append] at this
      exact this
  · refine .one ?_
    simp only [mnext, mstep, stepSigN, List.nil_append, createDecls]
    rw [← hws, createDecl_var]
    simp only [List.append_nil, Option.bind_some]
    exact hy

theorem int_read {x : Str} {K : List MSym} (hK : DeclCtx K) {ts : List Tok} {y : MS} (hy : addItem (.decl [.int x none]) K ts = some y) :
    MSt (at' K ((DItem.int x none).toks ++ ts)) y :=
  .head (y := at' (.ints [] :: K) (.id x :: .p .semicolon :: ts)) (hK.2 _) (.one hy)

/-- After the keyword of a parameter. -/
theorem param_start {p : Param} (h : p.OK) (loc : Bool) (m : List MSym) (ts : List Tok) :
    ∃ y opn, startParam loc m (signedToks p.signed ++ (widthToks p.width ++ (.id p.name :: .p .equals :: ts))) = some y ∧
      MSt y (at' (.pdecl loc p.signed opn (p.width.map rngErase) [] :: m) (.id p.name :: .p .equals :: ts)) := by
  obtain ⟨nm, v, wd, sg⟩ := p
  obtain ⟨hn, hv, hw⟩ := h
  simp only at hn hv hw
  simp only
  have hrest : ∃ opn, MSt (at' (.pdecl loc sg true none [] :: m) (widthToks wd ++ (.id nm :: .p .equals :: ts)))
      (at' (.pdecl loc sg opn (wd.map rngErase) [] :: m) (.id nm :: .p .equals :: ts)) := by
    cases wd with
    | none => exact ⟨true, .refl⟩
    | some r => exact ⟨false, rng_read (hw r rfl).1 rfl (fun _ => rfl)⟩
  obtain ⟨opn, hrest⟩ := hrest
  refine ⟨_, opn, ?_, hrest⟩
  cases sg with
  | true => simp [signedToks, startParam, go]
  | false =>
    cases wd with
    | none => rfl
    | some r => rfl

/-- A parameter up to the end of its value. -/
theorem param_read {p : Param} (h : p.OK) (loc : Bool) (m : List MSym) {t : Tok} (ht : t.ends = true) (ts : List Tok) :
    ∃ y, startParam loc m (signedToks p.signed ++ (widthToks p.width ++ (.id p.name :: .p .equals :: (p.value.itoks ++ t :: ts)))) = some y ∧
      MSt y (.pval loc p.signed (p.width.map rngErase) [] p.name :: m, [], [.ex p.value.erase], t :: ts) := by
  obtain ⟨y, opn, h1, h2⟩ := param_start h loc m (p.value.itoks ++ t :: ts)
  refine ⟨y, h1, h2.trans (.head (y := at' (.pval loc p.signed (p.width.map rngErase) [] p.name :: m) (p.value.itoks ++ t :: ts)) rfl ?_)⟩
  exact mread (x := .pval loc p.signed (p.width.map rngErase) [] p.name) trivial m h.2.1.1 ht ts

theorem assign_read {l r : Ex} (h : AssignOK l r) {K : List MSym} (hK : StdCtx K) {ts : List Tok} {y : MS}
    (hy : addItem (.assign l.erase r.erase) K ts = some y) :
    MSt (at' K ([.kw "assign".toList] ++ (l.itoks ++ .p .equals :: (r.itoks ++ [.p .semicolon])) ++ ts)) y := by
  simp only [List.append_assoc, List.cons_append, List.nil_append]
  refine .head (y := (.asn :: K, [.lhs], [], l.itoks ++ .p .equals :: (r.itoks ++ .p .semicolon :: ts)))
    (by rw [hK _ _ (by show _ ∈ itemWords; decide)]; rfl) ?_
  refine (lift_stmt (.inr rfl) _ (asg_parse h.1.1 h.2.1 h.2.2.1 false (o := []) (by intro _ _; simp) (t := .p .semicolon) rfl ts)).trans ?_
  exact .head (y := (.asn :: K, [.st (.ba l.erase r.erase)], [], ts)) rfl (.one hy)

/-- How an item of a declaration comes back. -/
def DItem.item : DItem → MItem
  | .assign l r => .assign l.erase r.erase
  | d => .decl [d.erase]

theorem norm_decl (ds : List DItem) : (MItem.decl ds).norm = ds.map DItem.item := by
  show ds.map _ = _
  refine List.map_congr_left (fun d _ => ?_)
  cases d <;> rfl

theorem ditem_read {d : DItem} (h : d.OK) {K : List MSym} (hK : StdCtx K) {ts : List Tok} {y : MS} (hy : addItem d.item K ts = some y) :
    MSt (at' K (d.toks ++ ts)) y := by
  cases d with
  | var v => exact var_read h hK.decl hy
  | int x e =>
    obtain ⟨hx, rfl⟩ := h
    exact int_read hK.decl hy
  | genvar x =>
    exact .head (y := at' (.names false [] :: K) (.id x :: .p .semicolon :: ts)) (by
      show mnext (at' K (.kw "genvar".toList :: _)) = _
      rw [hK _ _ (by show _ ∈ itemWords; decide)]; rfl) (.one hy)
  | param loc p =>
    have hp : p.OK := h
    obtain ⟨y', h1, h2⟩ := param_read hp loc K (t := .p .semicolon) rfl ts
    refine .head (y := y') ?_ (h2.trans (.one hy))
    simp only [DItem.toks, Param.ptoks, List.append_assoc, List.cons_append, List.nil_append]
    cases loc <;> (rw [← h1]; exact hK _ _ (by show _ ∈ itemWords; decide))
  | assign l r => exact assign_read h hK hy
  | real => exact h.elim
  | supply => exact h.elim

/-- Where a list of items is read. -/
structure ListCtx (F : List MItem → List MSym) : Prop where
  std : ∀ its, StdCtx (F its)
  add : ∀ x its ts, addItem x (F its) ts = some (at' (F (its ++ [x])) ts)

theorem body_list (n : Str) (ps : List (List Param)) (ports : List PortD) (m : List MSym) : ListCtx (fun its => .body n ps ports its :: m) :=
  ⟨fun its => body_std n ps ports its m, fun _ _ _ => rfl⟩

theorem decl_read (ds : List DItem) (h : ∀ d ∈ ds, d.OK) {F : List MItem → List MSym} (hF : ListCtx F) (ts : List Tok) :
    ∀ is : List MItem, MSt (at' (F is) (ds.flatMap DItem.toks ++ ts)) (at' (F (is ++ (MItem.decl ds).norm)) ts) := by
  rw [norm_decl]
  induction ds with
  | nil => intro is; simp only [List.flatMap_nil, List.nil_append, List.map_nil, List.append_nil]; exact .refl
  | cons d ds ih =>
    intro is
    simp only [List.flatMap_cons, List.append_assoc]
    refine (ditem_read (h d (by simp)) (hF.std is) (hF.add _ _ _)).trans ?_
    have := ih (fun d hd => h d (by simp [hd])) (is ++ [d.item])
    rw [List.append_assoc] at this
    exact this

/-! ## Sensitivity lists -/

theorem step_left_sens {i i' : List Sym} {l : Ex} (hl : leftOf i = some l) {t : Tok} (ht : sensEnd t = true) {ts ts' : List Tok}
    (h : step i (t :: ts) = some (i', ts')) : Bot i' ∨ (leftOf i' = none ∧ ∃ e, i' = [.ex e] ∧ ts' = t :: ts) := by
  have htt : t = .p .comma ∨ t = .p .rparen ∨ ∃ w, t = .kw w := by
    unfold sensEnd at ht
    split at ht
    · exact .inl rfl
    · exact .inr (.inl rfl)
    · exact .inr (.inr ⟨_, rfl⟩)
    · simp at ht
  unfold leftOf at hl
  split at hl
  · rcases htt with rfl | rfl | ⟨w, rfl⟩ <;> simp [step] at h <;> exact .inr ⟨by rw [← h.1]; rfl, _, h.1.symm, h.2.symm⟩
  · rcases htt with rfl | rfl | ⟨w, rfl⟩ <;> simp [step] at h <;> exact .inr ⟨by rw [← h.1]; rfl, _, h.1.symm, h.2.symm⟩
  · simp [step, stepEx, shift] at h
    exact .inl (.inl ⟨[], _, _, h.1.symm⟩)
  · simp at hl

theorem mnext_sens {k : AlwaysKind} {done : List SensItem} {c : Option Bool} {m : List MSym} {i : List Sym} {ts : List Tok}
    (h : ∀ l t ts', leftOf i = some l → ts = t :: ts' → sensEnd t = true → False) :
    mnext (.sens k done (some c) :: m, [], i, ts) = mInner (.sens k done (some c) :: m) i ts := by
  simp only [mnext, mstep, stepSens]
  split
  · next l t ts' hl =>
    rw [if_neg]
    intro ht
    exact h l t ts' hl rfl ht
  · rfl

theorem lift_sens {k : AlwaysKind} {done : List SensItem} {c : Option Bool} {m : List MSym} {i : List Sym} {ts : List Tok} {f : List Sym} {l : Ex}
    {ts' : List Tok} (hl : leftOf f = some l) (h : St i ts f ts') :
    MSt (.sens k done (some c) :: m, [], i, ts) (.sens k done (some c) :: m, [], f, ts') := by
  induction h with
  | refl => exact .refl
  | @head s t s1 t1 s2 t2 h hr ih =>
    by_cases hx : ∀ l t' ts', leftOf s = some l → t = t' :: ts' → sensEnd t' = true → False
    · exact .head (y := (.sens k done (some c) :: m, [], s1, t1)) (by rw [mnext_sens hx, mInner, h]; rfl) (ih hl)
    · exfalso
      simp only [not_forall] at hx
      obtain ⟨l', t', ts', hs, rfl, ht, _⟩ := hx
      have hbot : ∀ {σ t}, St σ t s2 t2 → Bot σ → False := by
        intro σ t hst hb
        have := bot_left (hst.bot hb)
        rw [hl] at this; simp at this
      rcases step_left_sens hs ht h with hb | ⟨hn, e, rfl, rfl⟩
      · exact hbot hr hb
      · cases hr with
        | refl => rw [hn] at hl; simp at hl
        | head h' hr' =>
          simp only [step, stepEx, shift, Option.some.injEq, Prod.mk.injEq] at h'
          exact hbot hr' (.inl ⟨[], .tok t', e, by rw [← h'.1]; rfl⟩)

/-- A signal up to what follows it. -/
theorem sens_parse {l : Ex} (h : l.WF) (hb : l.isBase = true ∨ ∃ v m r, l = .psel v m r) {t : Tok} (ht : sensEnd t = true) (ts : List Tok) :
    ∃ f, leftOf f = some l.erase ∧ St [] (l.itoks ++ t :: ts) f (t :: ts) := by
  obtain ⟨h1, h2, _⟩ := parse_main l h
  rcases hb with hb | ⟨v, m, r, rfl⟩
  · obtain ⟨b, hbb, hst⟩ := h2 hb [] (t :: ts) rfl
    refine ⟨[b], ?_, hst⟩
    cases b <;> first | (simp [Sym.base?] at hbb; done) | (simp only [Sym.base?, Option.some.injEq] at hbb; rw [← hbb]; rfl)
  · refine ⟨_, rfl, h1 [] _ rfl trivial ?_ trivial⟩
    unfold sensEnd at ht
    split at ht <;> first | (simp at ht; done) | simp [Follow]

theorem sensOf_edge {e : Ex} (h : e.isBase = true) (b : Bool) : sensOf (some b) e.erase = some (if b then .posedge e.erase else .negedge e.erase) := by
  have := isBase_erase e h
  revert this
  cases e.erase <;> cases b <;> simp [Ex.isBase, sensOf]

theorem sensOf_level {e : Ex} (h : e.isBase = true ∨ ∃ v m r, e = .psel v m r) : sensOf none e.erase = some (.level e.erase) := by
  rcases h with h | ⟨v, m, r, rfl⟩
  · have := isBase_erase e h
    revert this
    cases e.erase <;> simp [Ex.isBase, sensOf]
  · rfl

/-- One signal of a sensitivity list up to what follows it. -/
theorem sens_read {s : SensItem} (h : s.EdgeOK ∨ s.LevelOK) (k : AlwaysKind) (done : List SensItem) (m : List MSym) {t : Tok} (ht : sensEnd t = true) (ts : List Tok) :
    ∃ c f l, leftOf f = some l ∧ sensOf c l = some s.erase ∧
      MSt (at' (.sens k done none :: m) (s.toks ++ t :: ts)) (.sens k done (some c) :: m, [], f, t :: ts) := by
  cases s with
  | all => rcases h with h | h <;> exact h.elim
  | posedge e =>
    rcases h with h | h
    · obtain ⟨f, hf, hst⟩ := sens_parse h.1.1 (.inl h.2) ht ts
      exact ⟨some true, f, _, hf, sensOf_edge h.2 true, .head (y := at' (.sens k done (some (some true)) :: m) (e.itoks ++ t :: ts)) rfl (lift_sens hf hst)⟩
    · exact h.elim
  | negedge e =>
    rcases h with h | h
    · obtain ⟨f, hf, hst⟩ := sens_parse h.1.1 (.inl h.2) ht ts
      exact ⟨some false, f, _, hf, sensOf_edge h.2 false, .head (y := at' (.sens k done (some (some false)) :: m) (e.itoks ++ t :: ts)) rfl (lift_sens hf hst)⟩
    · exact h.elim
  | level e =>
    rcases h with h | h
    · exact h.elim
    · obtain ⟨f, hf, hst⟩ := sens_parse h.1.1 h.2 ht ts
      refine ⟨none, f, _, hf, sensOf_level h.2, .head (y := at' (.sens k done (some none) :: m) (e.itoks ++ t :: ts)) ?_ (lift_sens hf hst)⟩
      obtain ⟨t0, r0, e0, h0⟩ := itoks_head e h.1.1
      simp only [SensItem.toks, e0, List.cons_append]
      cases t0 <;> first | rfl | exact absurd rfl (h0 _)

theorem addSens_ok (done : List SensItem) (s : SensItem) (h : ∀ x ∈ done, x.isEdge = s.isEdge) : addSens done s = some (done ++ [s]) := by
  simp only [addSens]
  rw [if_pos]
  simpa using h

theorem sens_step {c : Option Bool} {f : List Sym} {l : Ex} {s : SensItem} (hf : leftOf f = some l) (hs : sensOf c l = some s) {done : List SensItem}
    (hd : ∀ x ∈ done, x.isEdge = s.isEdge) {t : Tok} (ht : sensEnd t = true) (k : AlwaysKind) (m : List MSym) (ts : List Tok) :
    mnext (.sens k done (some c) :: m, [], f, t :: ts) =
      if t = .p .rparen then go (.alw k (done ++ [s]) :: m) ts else go (.sens k (done ++ [s]) none :: m) ts := by
  simp only [mnext, mstep, stepSens, hf, ht, if_true, hs, Option.bind_some, addSens_ok done s hd]

theorem senss_read (b : Bool) (ss : List SensItem) (h : ∀ s ∈ ss, (s.EdgeOK ∨ s.LevelOK) ∧ s.erase.isEdge = b) (hne : ss ≠ []) (k : AlwaysKind) (m : List MSym)
    (ts : List Tok) : ∀ done : List SensItem, (∀ x ∈ done, x.isEdge = b) →
    MSt (at' (.sens k done none :: m) (sensToks ss ++ .p .rparen :: ts)) (at' (.alw k (done ++ ss.map SensItem.erase) :: m) ts) := by
  induction ss with
  | nil => exact absurd rfl hne
  | cons s ss ih =>
    intro done hdone
    obtain ⟨hs, hb⟩ := h s (by simp)
    have hd : ∀ x ∈ done, x.isEdge = s.erase.isEdge := fun x hx => by rw [hdone x hx, hb]
    cases ss with
    | nil =>
      obtain ⟨c, f, l, h1, h2, h3⟩ := sens_read hs k done m (t := .p .rparen) rfl ts
      refine h3.trans (.one ?_)
      rw [sens_step h1 h2 hd rfl, if_pos rfl]
      rfl
    | cons s2 ss =>
      simp only [sensToks, List.append_assoc, List.cons_append, List.nil_append]
      obtain ⟨c, f, l, h1, h2, h3⟩ := sens_read hs k done m (t := .kw "or".toList) (by decide) (sensToks (s2 :: ss) ++ .p .rparen :: ts)
      refine h3.trans (.head (y := at' (.sens k (done ++ [s.erase]) none :: m) (sensToks (s2 :: ss) ++ .p .rparen :: ts)) ?_ ?_)
      · rw [sens_step h1 h2 hd (by decide), if_neg (by simp)]
        rfl
      · have := ih (fun s hs => h s (by simp at hs ⊢; tauto)) (by simp) (done ++ [s.erase]) (by
          intro x hx
          rcases List.mem_append.mp hx with hx | hx
          · exact hdone x hx
          · simp at hx; subst hx; exact hb)
        simpa using this

theorem base_itoks {l : Ex} (hw : l.WF) (hb : l.isBase = true ∨ ∃ v m r, l = .psel v m r) : ∃ n r, l.itoks = .id n :: r := by
  have hbase : ∀ l : Ex, l.isBase = true → ∃ n r, l.itoks = .id n :: r := by
    intro l h
    induction l using Ex.ind with
    | ident sc n =>
      cases sc with
      | nil => exact ⟨_, _, rfl⟩
      | cons a sc => exact ⟨_, _, rfl⟩
    | ptr v p ihv _ =>
      obtain ⟨t, r, e⟩ := ihv h
      exact ⟨t, _, by simp only [Ex.itoks, e]; rfl⟩
    | _ => simp [Ex.isBase] at h
  rcases hb with h | ⟨v, m, r, rfl⟩
  · exact hbase l h
  · simp only [Ex.WF] at hw
    obtain ⟨t, r, e⟩ := hbase v hw.1
    exact ⟨t, _, by simp only [Ex.itoks, e]; rfl⟩

theorem sensToks_head {ss : List SensItem} (h : ∀ s ∈ ss, s.EdgeOK ∨ s.LevelOK) (hne : ss ≠ []) : ∃ t r, sensToks ss = t :: r ∧ t ≠ .p .times := by
  have h1 : ∀ s : SensItem, s.EdgeOK ∨ s.LevelOK → ∃ t r, s.toks = t :: r ∧ t ≠ .p .times := by
    intro s hs
    cases s with
    | all => rcases hs with h | h <;> exact h.elim
    | posedge e => exact ⟨_, _, rfl, by simp⟩
    | negedge e => exact ⟨_, _, rfl, by simp⟩
    | level e =>
      rcases hs with h | h
      · exact h.elim
      · obtain ⟨n, r, e⟩ := base_itoks h.1.1 h.2
        exact ⟨_, _, e, by simp⟩
  cases ss with
  | nil => exact absurd rfl hne
  | cons s ss =>
    obtain ⟨t, r, e, ht⟩ := h1 s (h s (by simp))
    cases ss with
    | nil => exact ⟨t, r, e, ht⟩
    | cons s2 ss => exact ⟨t, _, by simp only [sensToks, e]; rfl, ht⟩

theorem edge_ok {s : SensItem} (h : s.EdgeOK) : s.erase.isEdge = true := by cases s <;> first | exact h.elim | rfl
theorem level_ok {s : SensItem} (h : s.LevelOK) : s.erase.isEdge = false := by cases s <;> first | exact h.elim | rfl

theorem startAlways_paren (k : AlwaysKind) (m : List MSym) {t : Tok} (ht : t ≠ .p .times) (r : List Tok) :
    startAlways k m (.p .at :: .p .lparen :: t :: r) = some (at' (.sens k [] none :: m) (t :: r)) := by
  cases t with
  | p x => cases x <;> first | rfl | exact absurd rfl ht
  | _ => rfl

theorem senslist_read {ss : List SensItem} (h : SensOK ss) (k : AlwaysKind) (m : List MSym) (ts : List Tok) :
    ∃ y, startAlways k m (.p .at :: .p .lparen :: (sensToks ss ++ .p .rparen :: ts)) = some y ∧ MSt y (at' (.alw k (ss.map SensItem.erase) :: m) ts) := by
  rcases h with rfl | ⟨hne, h⟩ | ⟨hne, h⟩
  · exact ⟨_, rfl, .refl⟩
  · obtain ⟨t, r, e, ht⟩ := sensToks_head (fun s hs => .inl (h s hs)) hne
    have := senss_read true ss (fun s hs => ⟨.inl (h s hs), edge_ok (h s hs)⟩) hne k m ts [] (by simp)
    refine ⟨_, ?_, this⟩
    rw [e, List.cons_append]
    exact startAlways_paren k m ht _
  · obtain ⟨t, r, e, ht⟩ := sensToks_head (fun s hs => .inr (h s hs)) hne
    have := senss_read false ss (fun s hs => ⟨.inr (h s hs), level_ok (h s hs)⟩) hne k m ts [] (by simp)
    refine ⟨_, ?_, this⟩
    rw [e, List.cons_append]
    exact startAlways_paren k m ht _

end Pyv
