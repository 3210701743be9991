import Verif.Props.ModuleProps
/-
  C72: several names in one declaration.
-/
namespace Pyv

/-- A declaration as it is written in a source text: of several signals, integers, genvars or parameters, or of one signal
with a value. -/
inductive Group where
  | sig (k : SigKind) (sg : Bool) (w : Option WRange) (xs : List (Str × Option (List WRange)))
  | ints (xs : List (Str × Option Ex))
  | genvars (xs : List Str)
  | params (loc sg : Bool) (w : Option WRange) (xs : List (Str × Ex))
  | value (reg sg : Bool) (w : Option WRange) (n : Str) (e : Ex)

/-- ` = e`, or nothing. -/
def valueText : Option Ex → Str
  | none => []
  | some e => " = ".toList ++ e.rcode

/-- Its text; the names are separated by a comma and a newline. -/
def Group.text : Group → Str
  | .sig k sg w xs => k.word ++ [' '] ++ (signedCode sg ++ (widthCode w ++ (commaNl (xs.map (fun x => escape x.1 ++ dimsCode x.2)) ++ [';'])))
  | .ints xs => "integer ".toList ++ (commaNl (xs.map (fun x => escape x.1 ++ valueText x.2)) ++ [';'])
  | .genvars xs => "genvar ".toList ++ (commaNl (xs.map escape) ++ [';'])
  | .params loc sg w xs => (if loc then "localparam ".toList else "parameter ".toList) ++
      (signedCode sg ++ (widthCode w ++ (commaNl (xs.map (fun x => escape x.1 ++ valueText (some x.2))) ++ [';'])))
  | .value reg sg w n e => (if reg then "reg ".toList else "wire ".toList) ++
      (signedCode sg ++ (widthCode w ++ ((escape n ++ valueText (some e)) ++ [';'])))

/-- What it means: every name is declared with the same type, and a value is assigned. -/
def Group.items : Group → List DItem
  | .sig k sg w xs => xs.map (fun x => .var ⟨k, x.1, w, sg, x.2⟩)
  | .ints xs => xs.map (fun x => .int x.1 x.2)
  | .genvars xs => xs.map .genvar
  | .params loc sg w xs => xs.map (fun x => .param loc ⟨x.1, x.2, w, sg⟩)
  | .value reg sg w n e => [.var ⟨if reg then .reg else .wire, n, w, sg, none⟩, .assign (.ident [] n) e]

/-- It can be written. -/
def Group.OK : Group → Prop
  | .sig _ _ w xs => xs ≠ [] ∧ (∀ r, w = some r → RngOK r) ∧
      ∀ x ∈ xs, NameOK x.1 ∧ ∀ ls, x.2 = some ls → ls ≠ [] ∧ ∀ r ∈ ls, RngOK r
  | .ints xs => xs ≠ [] ∧ ∀ x ∈ xs, NameOK x.1 ∧ ∀ e, x.2 = some e → e.Printable
  | .genvars xs => xs ≠ [] ∧ ∀ x ∈ xs, NameOK x
  | .params _ _ w xs => xs ≠ [] ∧ (∀ r, w = some r → RngOK r) ∧ ∀ x ∈ xs, NameOK x.1 ∧ x.2.Printable
  | .value _ _ w n e => (∀ r, w = some r → RngOK r) ∧ NameOK n ∧ e.Printable

/-- The tokens of a value. -/
def valueToks : Option Ex → List Tok
  | none => []
  | some e => [.p .equals] ++ e.itoks

/-- The tokens of a declaration. -/
def Group.toks : Group → List Tok
  | .sig k sg w xs => [.kw k.word] ++ (signedToks sg ++ (widthToks w ++ (commaT (xs.map (fun x => [.id x.1] ++ dimsToks x.2)) ++ [.p .semicolon])))
  | .ints xs => [.kw "integer".toList] ++ (commaT (xs.map (fun x => [.id x.1] ++ valueToks x.2)) ++ [.p .semicolon])
  | .genvars xs => [.kw "genvar".toList] ++ (commaT (xs.map (fun x => [.id x])) ++ [.p .semicolon])
  | .params loc sg w xs => [.kw (if loc then "localparam".toList else "parameter".toList)] ++
      (signedToks sg ++ (widthToks w ++ (commaT (xs.map (fun x => [.id x.1] ++ valueToks (some x.2))) ++ [.p .semicolon])))
  | .value reg sg w n e => [.kw (if reg then "reg".toList else "wire".toList)] ++
      (signedToks sg ++ (widthToks w ++ (([.id n] ++ valueToks (some e)) ++ [.p .semicolon])))

theorem value_pr {n : Str} {v : Option Ex} (hn : NameOK n) (h : ∀ e, v = some e → e.Printable) :
    Pr false (escape n ++ valueText v) ([.id n] ++ valueToks v) := by
  cases v with
  | none => simpa [valueText, valueToks] using Pr.name hn
  | some e => exact .appD (.name hn) (.app .eqs (.expr (h e rfl))) (DHead.cons _ (by decide))

theorem group_pr {f : Bool} {g : Group} (h : g.OK) : Pr f g.text g.toks := by
  cases g with
  | sig k sg w xs =>
    obtain ⟨_, hw, hx⟩ := h
    have := commaNl_pr (xs.map (fun x => (escape x.1 ++ dimsCode x.2, [.id x.1] ++ dimsToks x.2))) (by
      intro y hy
      obtain ⟨x, hm, rfl⟩ := List.mem_map.mp hy
      exact name_dims_pr (hx x hm).1 (hx x hm).2)
    simp only [List.map_map, Function.comp_def] at this
    exact .app (.kws (word_reserved _)) (.app (signed_pr _) (.app (width_pr hw) (.appD this semi_pr semi_dhead)))
  | ints xs =>
    obtain ⟨_, hx⟩ := h
    have := commaNl_pr (xs.map (fun x => (escape x.1 ++ valueText x.2, [.id x.1] ++ valueToks x.2))) (by
      intro y hy
      obtain ⟨x, hm, rfl⟩ := List.mem_map.mp hy
      exact value_pr (hx x hm).1 (hx x hm).2)
    simp only [List.map_map, Function.comp_def] at this
    exact .app (a := "integer".toList ++ [' ']) (.kws (by decide)) (.appD this semi_pr semi_dhead)
  | genvars xs =>
    obtain ⟨_, hx⟩ := h
    have := commaNl_pr (xs.map (fun x => (escape x, [.id x]))) (by
      intro y hy
      obtain ⟨x, hm, rfl⟩ := List.mem_map.mp hy
      exact .name (hx x hm))
    simp only [List.map_map, Function.comp_def] at this
    exact .app (a := "genvar".toList ++ [' ']) (.kws (by decide)) (.appD this semi_pr semi_dhead)
  | params loc sg w xs =>
    obtain ⟨_, hw, hx⟩ := h
    have := commaNl_pr (xs.map (fun x => (escape x.1 ++ valueText (some x.2), [.id x.1] ++ valueToks (some x.2)))) (by
      intro y hy
      obtain ⟨x, hm, rfl⟩ := List.mem_map.mp hy
      exact value_pr (hx x hm).1 (fun e he => by simp only [Option.some.injEq] at he; subst he; exact (hx x hm).2))
    simp only [List.map_map, Function.comp_def] at this
    have hk : Pr true (if loc then "localparam ".toList else "parameter ".toList) [.kw (if loc then "localparam".toList else "parameter".toList)] := by
      cases loc
      · exact Pr.kws (w := "parameter".toList) (by decide)
      · exact Pr.kws (w := "localparam".toList) (by decide)
    exact .app hk (.app (signed_pr _) (.app (width_pr hw) (.appD this semi_pr semi_dhead)))
  | value reg sg w n e =>
    obtain ⟨hw, hn, he⟩ := h
    have hk : Pr true (if reg then "reg ".toList else "wire ".toList) [.kw (if reg then "reg".toList else "wire".toList)] := by
      cases reg
      · exact Pr.kws (w := "wire".toList) (by decide)
      · exact Pr.kws (w := "reg".toList) (by decide)
    exact .app hk (.app (signed_pr _) (.app (width_pr hw) (.appD (value_pr hn (by simpa using he)) semi_pr semi_dhead)))

theorem createDecls_var (k : SigKind) (sg : Bool) (wd : Option WRange) (xs : List (Str × Option (List WRange))) :
    createDecls (k.word :: (if sg then ["signed".toList] else [])) wd xs = some (xs.map (fun x => .var ⟨k, x.1, wd, sg, x.2⟩)) := by
  induction xs with
  | nil => rfl
  | cons x xs ih => obtain ⟨n, d⟩ := x; simp only [createDecls, createDecl_var, ih]; rfl

/-- The words and the width of a declaration. -/
theorem sig_start (k : SigKind) (sg : Bool) (w : Option WRange) (hw : ∀ r, w = some r → RngOK r) (n : Str) (ps : List (List Param)) (ports : List PortD)
    (is : List MItem) (m : List MSym) (nm : Str) (ts : List Tok) :
    MSt (bodyAt n ps ports is m (.kw k.word :: (signedToks sg ++ (widthToks w ++ .id nm :: ts))))
      (at' (.sig (k.word :: (if sg then ["signed".toList] else [])) (w.map rngErase) [] :: .body n ps ports is :: m) (.id nm :: ts)) := by
  generalize hm : (MSym.body n ps ports is :: m) = m0
  refine .head (y := at' (.sig [k.word] none [] :: m0) (signedToks sg ++ (widthToks w ++ .id nm :: ts))) (by subst hm; exact (body_std n ps ports is m).decl.1 _ _) ?_
  refine MSt.trans (y := at' (.sig (k.word :: (if sg then ["signed".toList] else [])) none [] :: m0) (widthToks w ++ .id nm :: ts)) ?_ ?_
  · cases sg with
    | false => exact .refl
    | true => exact .one (by simp [mnext, mstep, stepSig, go, signedToks]; decide)
  · cases w with
    | none => exact .refl
    | some r => exact rng_read (hw r rfl) rfl (fun _ => rfl)

/-- One name of a declaration. -/
theorem signame_read (ws : List Str) (wd : Option WRange) (done : List (Str × Option (List WRange))) (m : List MSym) (x : Str × Option (List WRange))
    (hx : ∀ ls, x.2 = some ls → ls ≠ [] ∧ ∀ r ∈ ls, RngOK r) (ts : List Tok) :
    MSt (at' (.sig ws wd done :: m) (.id x.1 :: (dimsToks x.2 ++ ts))) (at' (.sigN ws wd done x.1 (x.2.map (List.map rngErase)) :: m) ts) := by
  obtain ⟨n, d⟩ := x
  refine .head (y := at' (.sigN ws wd done n none :: m) (dimsToks d ++ ts)) rfl ?_
  cases d with
  | none => exact .refl
  | some ls =>
    have := sigN_dims ws wd done n m ls (hx ls rfl).2 ts none (.inl (hx ls rfl).1)
    rw [Option.getD_none, List.nil_append] at this
    exact this

theorem sigs_read (xs : List (Str × Option (List WRange))) (hne : xs ≠ []) (hx : ∀ x ∈ xs, ∀ ls, x.2 = some ls → ls ≠ [] ∧ ∀ r ∈ ls, RngOK r)
    (ws : List Str) (wd : Option WRange) (m : List MSym) (ts : List Tok) (y : MS) : ∀ done,
    (createDecls ws wd (done ++ xs.map (fun x => (x.1, x.2.map (List.map rngErase))))).bind (fun ds => addItem (.decl ds) m ts) = some y →
    MSt (at' (.sig ws wd done :: m) (commaT (xs.map (fun x => [.id x.1] ++ dimsToks x.2)) ++ .p .semicolon :: ts)) y := by
  induction xs with
  | nil => exact absurd rfl hne
  | cons x xs ih =>
    intro done hy
    cases xs with
    | nil =>
      simp only [List.map_cons, List.map_nil, commaT, List.append_assoc, List.cons_append, List.nil_append]
      refine (signame_read ws wd done m x (hx x (by simp)) _).trans (.one ?_)
      exact hy
    | cons z xs =>
      simp only [List.map_cons, commaT, List.append_assoc, List.cons_append, List.nil_append]
      refine (signame_read ws wd done m x (hx x (by simp)) _).trans ?_
      refine .head (y := at' (.sig ws wd (done ++ [(x.1, x.2.map (List.map rngErase))]) :: m)
        (commaT ((z :: xs).map (fun x => [.id x.1] ++ dimsToks x.2)) ++ .p .semicolon :: ts)) rfl ?_
      exact ih (by simp) (fun x hm => hx x (by simp at hm ⊢; tauto)) _ (by simpa using hy)

theorem ints_read (xs : List (Str × Option Ex)) (hne : xs ≠ []) (hx : ∀ x ∈ xs, ∀ e, x.2 = some e → e.WF) (m : List MSym) (ts : List Tok) (y : MS) :
    ∀ done, addItem (.decl (done ++ xs.map (fun x => .int x.1 (x.2.map Ex.erase)))) m ts = some y →
    MSt (at' (.ints done :: m) (commaT (xs.map (fun x => [.id x.1] ++ valueToks x.2)) ++ .p .semicolon :: ts)) y := by
  induction xs with
  | nil => exact absurd rfl hne
  | cons x xs ih =>
    intro done hy
    obtain ⟨n, v⟩ := x
    cases xs with
    | nil =>
      cases v with
      | none => exact .one hy
      | some e =>
        simp only [List.map_cons, List.map_nil, commaT, List.append_assoc, List.cons_append, List.nil_append, valueToks]
        refine .head (y := at' (.intV done n :: m) (e.itoks ++ .p .semicolon :: ts)) rfl ?_
        refine (mread (x := .intV done n) trivial m (hx (n, some e) (by simp) e rfl) (t := .p .semicolon) rfl ts).trans (.one ?_)
        exact hy
    | cons z xs =>
      have hr := ih (by simp) (fun x hm => hx x (by simp at hm ⊢; tauto)) (done ++ [.int n (v.map Ex.erase)]) (by simpa using hy)
      simp only [List.map_cons, commaT, List.append_assoc, List.cons_append, List.nil_append]
      simp only [List.map_cons, List.cons_append, List.nil_append] at hr
      cases v with
      | none => exact .head (y := at' (.ints (done ++ [.int n none]) :: m) _) rfl hr
      | some e =>
        simp only [valueToks, List.append_assoc, List.cons_append, List.nil_append]
        refine .head (y := at' (.intV done n :: m) (e.itoks ++ .p .comma :: _)) rfl ?_
        exact (mread (x := .intV done n) trivial m (hx (n, some e) (by simp) e rfl) (t := .p .comma) rfl _).trans
          (.head (y := at' (.ints (done ++ [.int n (some e.erase)]) :: m) _) rfl hr)

theorem genvars_read (xs : List Str) (hne : xs ≠ []) (m : List MSym) (ts : List Tok) (y : MS) :
    ∀ done, addItem (.decl (done ++ xs.map .genvar)) m ts = some y →
    MSt (at' (.names false done :: m) (commaT (xs.map (fun x => [.id x])) ++ .p .semicolon :: ts)) y := by
  induction xs with
  | nil => exact absurd rfl hne
  | cons x xs ih =>
    intro done hy
    cases xs with
    | nil => exact .one hy
    | cons z xs =>
      have hr := ih (by simp) (done ++ [.genvar x]) (by simpa using hy)
      exact .head (y := at' (.names false (done ++ [.genvar x]) :: m) _) rfl hr

theorem pvals_read (xs : List (Str × Ex)) (hne : xs ≠ []) (hx : ∀ x ∈ xs, x.2.WF) (loc sg : Bool) (wd : Option WRange)
    {m : List MSym} (hm : ∀ q m', m ≠ .params q :: m') (ts : List Tok) (y : MS) :
    ∀ opn done, addItem (.decl ((done ++ xs.map (fun x => (⟨x.1, x.2.erase, wd, sg⟩ : Param))).map (.param loc))) m ts = some y →
    MSt (at' (.pdecl loc sg opn wd done :: m) (commaT (xs.map (fun x => [.id x.1] ++ valueToks (some x.2))) ++ .p .semicolon :: ts)) y := by
  induction xs with
  | nil => exact absurd rfl hne
  | cons x xs ih =>
    intro opn done hy
    obtain ⟨n, e⟩ := x
    cases xs with
    | nil =>
      simp only [List.map_cons, List.map_nil, commaT, List.append_assoc, List.cons_append, List.nil_append, valueToks]
      refine .head (y := at' (.pval loc sg wd done n :: m) (e.itoks ++ .p .semicolon :: ts)) rfl ?_
      exact (mread (x := .pval loc sg wd done n) trivial m (hx (n, e) (by simp)) (t := .p .semicolon) rfl ts).trans (.one hy)
    | cons z xs =>
      have hr := ih (by simp) (fun x hm => hx x (by simp at hm ⊢; tauto)) false (done ++ [⟨n, e.erase, wd, sg⟩]) (by simpa using hy)
      simp only [List.map_cons, commaT, List.append_assoc, List.cons_append, List.nil_append, valueToks]
      simp only [List.map_cons, List.cons_append, List.nil_append, valueToks] at hr
      refine .head (y := at' (.pval loc sg wd done n :: m) (e.itoks ++ .p .comma :: _)) rfl ?_
      refine (mread (x := .pval loc sg wd done n) trivial m (hx (n, e) (by simp)) (t := .p .comma) rfl _).trans
          (.head (y := at' (.pdecl loc sg false wd (done ++ [⟨n, e.erase, wd, sg⟩]) :: m) _) ?_ hr)
      simp only [mnext, mstep, stepPval]
      split
      · exact absurd rfl (hm _ _)
      · rfl

theorem group_read {g : Group} (h : g.OK) (n : Str) (ps : List (List Param)) (ports : List PortD) (is : List MItem) (m : List MSym) (ts : List Tok) :
    MSt (bodyAt n ps ports is m (g.toks ++ ts)) (bodyAt n ps ports (is ++ [.decl (g.items.map DItem.erase)]) m ts) := by
  cases g with
  | sig k sg w xs =>
    obtain ⟨hne, hw, hx⟩ := h
    simp only [Group.toks, List.append_assoc, List.cons_append, List.nil_append]
    have hhd : ∃ nm r, commaT (xs.map (fun x => [Tok.id x.1] ++ dimsToks x.2)) ++ .p .semicolon :: ts = .id nm :: r := by
      cases xs with
      | nil => exact absurd rfl hne
      | cons x xs => cases xs <;> exact ⟨_, _, rfl⟩
    obtain ⟨nm, r, e⟩ := hhd
    have h1 := sig_start k sg w hw n ps ports is m nm r
    rw [← e] at h1
    refine h1.trans (sigs_read xs hne (fun x hm => (hx x hm).2) _ _ _ ts _ [] ?_)
    rw [createDecls_var]
    simp only [List.nil_append, Option.bind_some, List.map_map, Function.comp_def, Group.items]
    rfl
  | ints xs =>
    obtain ⟨hne, hx⟩ := h
    simp only [Group.toks, List.append_assoc, List.cons_append, List.nil_append]
    refine .head (y := at' (.ints [] :: .body n ps ports is :: m) _) rfl
      (ints_read xs hne (fun x hm e he => ((hx x hm).2 e he).1) _ ts _ [] ?_)
    simp only [List.nil_append, Group.items, List.map_map, Function.comp_def]
    rfl
  | genvars xs =>
    obtain ⟨hne, hx⟩ := h
    simp only [Group.toks, List.append_assoc, List.cons_append, List.nil_append]
    refine .head (y := at' (.names false [] :: .body n ps ports is :: m) _) rfl (genvars_read xs hne _ ts _ [] ?_)
    simp only [List.nil_append, Group.items, List.map_map, Function.comp_def]
    rfl
  | params loc sg w xs =>
    obtain ⟨hne, hw, hx⟩ := h
    simp only [Group.toks, List.append_assoc, List.cons_append, List.nil_append]
    have hhd : ∃ nm r, commaT (xs.map (fun x => [Tok.id x.1] ++ valueToks (some x.2))) ++ .p .semicolon :: ts = .id nm :: .p .equals :: r := by
      cases xs with
      | nil => exact absurd rfl hne
      | cons x xs => cases xs <;> exact ⟨_, _, rfl⟩
    obtain ⟨nm, r, e⟩ := hhd
    have hstart : ∃ y opn, startParam loc (.body n ps ports is :: m) (signedToks sg ++ (widthToks w ++ (.id nm :: .p .equals :: r))) = some y ∧
        MSt y (at' (.pdecl loc sg opn (w.map rngErase) [] :: .body n ps ports is :: m) (.id nm :: .p .equals :: r)) := by
      have hrest : ∃ opn, MSt (at' (.pdecl loc sg true none [] :: .body n ps ports is :: m) (widthToks w ++ (.id nm :: .p .equals :: r)))
          (at' (.pdecl loc sg opn (w.map rngErase) [] :: .body n ps ports is :: m) (.id nm :: .p .equals :: r)) := by
        cases w with
        | none => exact ⟨true, .refl⟩
        | some r => exact ⟨false, rng_read (hw r rfl) rfl (fun _ => rfl)⟩
      obtain ⟨opn, hrest⟩ := hrest
      refine ⟨_, opn, ?_, hrest⟩
      cases sg with
      | true => simp [signedToks, startParam, go]
      | false =>
        cases w with
        | none => rfl
        | some r => rfl
    obtain ⟨y, opn, h1, h2⟩ := hstart
    rw [← e] at h1 h2
    refine .head (y := y) ?_ (h2.trans (pvals_read xs hne (fun x hm => (hx x hm).2.1) loc sg _ (by simp) ts _ opn [] ?_))
    · cases loc <;> exact h1
    · simp only [List.nil_append, Group.items, List.map_map, Function.comp_def]
      rfl
  | value reg sg w nm e =>
    obtain ⟨hw, hn, he⟩ := h
    simp only [Group.toks, List.append_assoc, List.cons_append, List.nil_append, valueToks]
    have h1 := sig_start (if reg then .reg else .wire) sg w hw n ps ports is m nm (.p .equals :: (e.itoks ++ .p .semicolon :: ts))
    have e1 : SigKind.word (if reg then .reg else .wire) = (if reg then "reg".toList else "wire".toList) := by cases reg <;> rfl
    rw [e1] at h1
    refine h1.trans ?_
    refine .head (y := at' (.sigN _ _ [] nm none :: .body n ps ports is :: m) (.p .equals :: (e.itoks ++ .p .semicolon :: ts))) rfl ?_
    refine .head (y := at' (.sigV _ _ nm :: .body n ps ports is :: m) (e.itoks ++ .p .semicolon :: ts)) rfl ?_
    refine (mread (x := .sigV _ _ nm) trivial _ he.1 (t := .p .semicolon) rfl ts).trans (.one ?_)
    simp only [mnext, mstep, stepSigV]
    have : createDeclAssign ((if reg then "reg".toList else "wire".toList) :: (if sg then ["signed".toList] else [])) (w.map rngErase) nm e.erase =
        some ((Group.value reg sg w nm e).items.map DItem.erase) := by
      cases reg <;> cases sg <;> rfl
    rw [this]
    rfl

/-- A module with a declaration as it is written in a source text, between other items. -/
def groupedSource (md : Str) (before : List MItem) (g : Group) (after : List MItem) : Str :=
  "module ".toList ++ (escape md ++ ("();".toList ++ (before.flatMap (fun i => '\n' :: indentN 2 i.code) ++
    (['\n'] ++ (g.text ++ (after.flatMap (fun i => '\n' :: indentN 2 i.code) ++ "\nendmodule".toList))))))

/-- **C72** (part): a declaration of several signals, integers, genvars or parameters declares each of its names, in order,
with the written type, range and value, and a declaration with a value declares the signal and assigns the value; the items
around it are not affected.  Missing: `logic` (`C72_fails_logic`), `real` (`C70_fails_real`), supplies. -/
theorem C72_group_partial (md : Str) (before after : List MItem) (g : Group) (hm : NameOK md) (hb : ∀ i ∈ before, i.OK)
    (ha : ∀ i ∈ after, i.OK) (hg : g.OK) (ms : List ModuleDef) :
    SourceParsesTo (groupedSource md before g after) ms ↔
      ms = [⟨md, [], [], before.flatMap MItem.norm ++ [.decl (g.items.map DItem.erase)] ++ after.flatMap MItem.norm⟩] := by
  suffices h : SourceParsesTo (groupedSource md before g after)
      [⟨md, [], [], before.flatMap MItem.norm ++ [.decl (g.items.map DItem.erase)] ++ after.flatMap MItem.norm⟩] from
    ⟨fun h' => h'.unique h, fun e => e ▸ h⟩
  have hp : Pr true "();".toList ([.p .lparen] ++ ([.p .rparen] ++ [.p .semicolon])) :=
    Pr.app (.ch .lparen '(' rfl rfl rfl) (.app (.ch .rparen ')' rfl rfl rfl) semi_pr)
  have hend : Pr false "\nendmodule".toList [.kw "endmodule".toList] := Pr.app (a := ['\n']) (A := []) nl_pr (Pr.kw (w := "endmodule".toList) (by decide))
  have hlex : Pr false (groupedSource md before g after)
      ([.kw "module".toList] ++ ([.id md] ++ (([.p .lparen] ++ ([.p .rparen] ++ [.p .semicolon])) ++ (before.flatMap MItem.toks ++
        ([] ++ (g.toks ++ (after.flatMap MItem.toks ++ [.kw "endmodule".toList]))))))) := by
    refine Pr.app (Pr.kws (w := "module".toList) (by decide)) (.appD (.name hm) (.app hp (.app (mitems_pr before hb) (.app nl_pr (.app (group_pr hg) (.app (mitems_pr after ha) hend))))) ?_)
    exact DHead.cons _ (by decide)
  refine ⟨_, hlex.toLex, ?_⟩
  simp only [List.append_assoc, List.cons_append, List.nil_append]
  have h1 : MSt (at' [.defs []] (.kw "module".toList :: .id md :: .p .lparen :: .p .rparen :: .p .semicolon ::
      (before.flatMap MItem.toks ++ (g.toks ++ (after.flatMap MItem.toks ++ [.kw "endmodule".toList])))))
      (bodyAt md [] [] [] [.defs []] (before.flatMap MItem.toks ++ (g.toks ++ (after.flatMap MItem.toks ++ [.kw "endmodule".toList])))) :=
    .head (y := at' [.mod md none, .defs []] _) rfl (.one rfl)
  have h2 := mitems_read before hb md [] [] [.defs []] (g.toks ++ (after.flatMap MItem.toks ++ [.kw "endmodule".toList])) ?_ []
  · have h3 := group_read hg md [] [] ([] ++ before.flatMap MItem.norm) [.defs []] (after.flatMap MItem.toks ++ [.kw "endmodule".toList])
    have h4 := mitems_read after ha md [] [] [.defs []] [.kw "endmodule".toList] (follows_kw (by decide) _) ([] ++ before.flatMap MItem.norm ++ [.decl (g.items.map DItem.erase)])
    have h5 : MSt (bodyAt md [] [] ([] ++ before.flatMap MItem.norm ++ [.decl (g.items.map DItem.erase)] ++ after.flatMap MItem.norm) [.defs []] [.kw "endmodule".toList])
        (at' [.defs [⟨md, [], [], [] ++ before.flatMap MItem.norm ++ [.decl (g.items.map DItem.erase)] ++ after.flatMap MItem.norm⟩]] []) := .one rfl
    have := h1.trans (h2.trans (h3.trans (h4.trans h5)))
    obtain ⟨k, hk⟩ := this.parse (by simp)
    refine ⟨k, ?_⟩
    simpa using hk
  · cases g with
    | sig k => exact follows_kw (by cases k <;> decide) _
    | ints => exact follows_kw (by decide) _
    | genvars => exact follows_kw (by decide) _
    | params loc => exact follows_kw (by cases loc <;> decide) _
    | value reg => exact follows_kw (by cases reg <;> decide) _

/-- **C72** fails for `logic a;`: nothing is declared. -/
theorem C72_fails_logic : SourceParsesTo "module m(); logic a; endmodule".toList [c70m [.decl []]] :=
  ⟨c70t [.kw "logic".toList, .id ['a'], .p .semicolon], by decide +kernel, 20, rfl⟩

/-- `wire signed [3:0] a, b [3:0]; ` between `integer e;` and `assign a = e;` -/
example : (Group.sig .wire true (some (.intc ['3'], .intc ['0'])) [(['a'], none), (['b'], some [(.intc ['3'], .intc ['0'])])]).OK ∧
    groupedSource ['m'] [.decl [.int ['e'] none]] (.sig .wire true (some (.intc ['3'], .intc ['0'])) [(['a'], none), (['b'], some [(.intc ['3'], .intc ['0'])])])
      [.assign (c65n 'a') (c65n 'e')] = "module m();\n  integer e;\nwire signed [3:0] a,\nb [3:0];\n  assign a = e;\nendmodule".toList := by
  refine ⟨⟨by simp, fun r hr => by simp only [Option.some.injEq] at hr; subst hr; exact c70_rng, ?_⟩, by decide +kernel⟩
  simp only [List.mem_cons, List.not_mem_nil, or_false, forall_eq_or_imp, forall_eq]
  exact ⟨⟨c70_name _ (by decide), by simp⟩, c70_name _ (by decide), (c70_var .wire 'b' false (by decide)).2.2.2.2⟩

/-! ## C73: positions of the arguments of an instance -/

/-- **C73** (part): the connections of an instance come back in the order in which they are written, each with its name (or
none) and its expression: see `C70_source_roundtrip_partial`; here for a module that consists of one instance. -/
theorem C73_connections_partial (md inst u : Str) (args : List PArg) (hm : NameOK md) (hi : NameOK inst) (hu : NameOK u) (ha : ArgsOK true args)
    (ms : List ModuleDef) : SourceParsesTo (sourceCode [⟨md, [], [], [.insts u [] [⟨inst, none, args⟩]]⟩]) ms ↔
      ms = [⟨md, [], [], [.insts u [] [⟨inst, none, args.map PArg.erase⟩]]⟩] := by
  have h := C70_source_roundtrip_partial [⟨md, [], [], [.insts u [] [⟨inst, none, args⟩]]⟩] (by simp) (by
    intro m hm'
    rw [List.mem_singleton.mp hm']
    refine ⟨hm, by simp, .inl (by simp), ?_⟩
    intro i hi'
    rw [List.mem_singleton.mp hi']
    refine ⟨hu, ⟨by simp, .inl (by simp)⟩, by simp, .inl ?_⟩
    intro j hj
    rw [List.mem_singleton.mp hj]
    exact ⟨hi, by simp, ha⟩) ms
  exact h

/-- **C73** fails for an omitted first connection: in `s u(, a);` the expression `a`, written for the second port, becomes
the first connection. -/
theorem C73_fails_omitted :
    SourceParsesTo "module m(); s u(, a); endmodule".toList [c70m [.insts ['s'] [] [⟨['u'], none, [⟨none, some (c65n 'a')⟩]⟩]]] ∧
    SourceParsesTo "module m(); s u(a); endmodule".toList [c70m [.insts ['s'] [] [⟨['u'], none, [⟨none, some (c65n 'a')⟩]⟩]]] :=
  ⟨⟨c70t [.id ['s'], .id ['u'], .p .lparen, .p .comma, .id ['a'], .p .rparen, .p .semicolon], by decide +kernel, 20, rfl⟩,
   ⟨c70t [.id ['s'], .id ['u'], .p .lparen, .id ['a'], .p .rparen, .p .semicolon], by decide +kernel, 20, rfl⟩⟩

example : ArgsOK true [⟨none, some (c65n 'a')⟩, ⟨none, some (.ptr (c65n 'b') (.intc ['3']))⟩] := by
  refine ⟨?_, .inr ?_⟩
  · simp only [List.mem_cons, List.not_mem_nil, or_false, forall_eq_or_imp, forall_eq, Option.some.injEq, forall_eq']
    refine ⟨c70_ident _ (by decide), ?_, ?_⟩
    · simp only [Ex.WF]; exact ⟨rfl, (c70_ident _ (by decide)).1, (c70_int _ (by decide)).1⟩
    · simp only [Ex.Leaves]; exact ⟨(c70_ident _ (by decide)).2, (c70_int _ (by decide)).2⟩
  · simp

end Pyv
