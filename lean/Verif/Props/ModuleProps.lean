import Verif.Props.ModuleRound
import Verif.Props.StmtProps
/-
  C70: source texts survive a print and a parse.  C71: ports without a type.
-/
namespace Pyv

/-! ## C70 -/

theorem mparseN_final (n : Nat) {ms : List ModuleDef} (h : ms ≠ []) (o : List OSym) (i : List Sym) :
    mparseN (n + 1) [.defs ms] o i [] = some ms := by simp [mparseN, h]

theorem mparseN_next (n : Nat) {m : List MSym} {o : List OSym} {i : List Sym} {t : List Tok}
    (h : ∀ ms, ¬ (m = [.defs ms] ∧ t = [])) :
    mparseN (n + 1) m o i t = (mstep m o i t).bind (fun x => mparseN n x.1 x.2.1 x.2.2.1 x.2.2.2) := by
  rw [mparseN]
  · cases mstep m o i t <;> rfl
  · rintro s rfl rfl; exact h s ⟨rfl, rfl⟩

theorem mparseN_mono {n : Nat} : ∀ {m o i t s}, mparseN n m o i t = some s → ∀ k, mparseN (n + k) m o i t = some s := by
  induction n with
  | zero => intro m o i t s h; simp [mparseN] at h
  | succ n ih =>
    intro m o i t s h k
    rw [show n + 1 + k = (n + k) + 1 by omega]
    by_cases hf : ∀ ms, ¬ (m = [.defs ms] ∧ t = [])
    · rw [mparseN_next _ hf] at h ⊢
      simp only [Option.bind_eq_some_iff] at h ⊢
      obtain ⟨x, hx, h⟩ := h
      exact ⟨x, hx, ih h k⟩
    · simp only [not_forall, Classical.not_not] at hf
      obtain ⟨ms, rfl, rfl⟩ := hf
      exact h

/-- The parser has at most one answer. -/
theorem SourceParsesTo.unique {text : Str} {s s' : List ModuleDef} (h : SourceParsesTo text s) (h' : SourceParsesTo text s') : s = s' := by
  obtain ⟨ts, hl, n, hn⟩ := h
  obtain ⟨ts', hl', n', hn'⟩ := h'
  rw [hl] at hl'
  simp only [Option.some.injEq] at hl'
  subst hl'
  have h1 := mparseN_mono hn n'
  have h2 := mparseN_mono hn' n
  rw [Nat.add_comm, h2] at h1
  simpa using h1.symm

/-- **C70** (part): a source text that is printed by the code generator and parsed again gives the same modules (every item
of a declaration as a declaration of its own, and without unary plus operators), and the parser has no other answer.
Functions, tasks and generate constructs are included.  Missing: see the theorems `C70_fails_*` and the domain
`ModuleDef.OK`; delays, system tasks, pragmas. -/
theorem C70_source_roundtrip_partial (ms : List ModuleDef) (hne : ms ≠ []) (h : ∀ m ∈ ms, m.OK) (ms' : List ModuleDef) :
    SourceParsesTo (sourceCode ms) ms' ↔ ms' = ms.map ModuleDef.norm :=
  ⟨fun h' => h'.unique (source_parses ms hne h), fun e => e ▸ source_parses ms hne h⟩

/-- The range contains no unary plus. -/
def rngNoUplus (r : WRange) : Bool := r.1.noUplus && r.2.noUplus

/-- The signal contains no unary plus. -/
def Var.noUplus (v : Var) : Bool := v.width.all rngNoUplus && v.dims.all (fun ls => ls.all rngNoUplus)

/-- The parameter contains no unary plus. -/
def Param.noUplus (p : Param) : Bool := p.value.noUplus && p.width.all rngNoUplus

/-- The item of a declaration contains no unary plus. -/
def DItem.noUplus : DItem → Bool
  | .var v => v.noUplus
  | .int _ e => e.all Ex.noUplus
  | .real _ => true
  | .genvar _ => true
  | .param _ p => p.noUplus
  | .supply _ _ w _ => w.all rngNoUplus
  | .assign l r => l.noUplus && r.noUplus

/-- The signal of a sensitivity list contains no unary plus. -/
def SensItem.noUplus : SensItem → Bool
  | .all => true
  | .posedge e | .negedge e | .level e => e.noUplus

/-- The argument contains no unary plus. -/
def PArg.noUplus (a : PArg) : Bool := a.arg.all Ex.noUplus

/-- The instance contains no unary plus. -/
def Inst.noUplus (i : Inst) : Bool := i.array.all rngNoUplus && i.ports.all PArg.noUplus

mutual
/-- The item contains no unary plus. -/
def MItem.noUplus : MItem → Bool
  | .decl ds => ds.all DItem.noUplus
  | .assign l r => l.noUplus && r.noUplus
  | .always _ ss s => ss.all SensItem.noUplus && s.noUplus
  | .initial s => s.noUplus
  | .insts _ ps is => ps.all PArg.noUplus && is.all Inst.noUplus
  | .func _ r ds s => (rngNoUplus r && ds.flatten.all DItem.noUplus) && s.noUplus
  | .task _ ds s => ds.flatten.all DItem.noUplus && s.noUplus
  | .gen is => MItem.noUplusL is
  | .gif c t => c.noUplus && t.noUplus
  | .gife c t f => c.noUplus && (t.noUplus && f.noUplus)
  | .gfor pl pr c ql qr b => (pl.noUplus && pr.noUplus && c.noUplus && ql.noUplus && qr.noUplus) && b.noUplus
  | .gblock _ is => MItem.noUplusL is
/-- `MItem.noUplus` on lists. -/
def MItem.noUplusL : List MItem → Bool
  | [] => true
  | i :: is => i.noUplus && MItem.noUplusL is
end

/-- The port contains no unary plus. -/
def PortD.noUplus : PortD → Bool
  | .port _ => true
  | .io f s => f.noUplus && s.all Var.noUplus
  | .none_ => true

/-- The module contains no unary plus. -/
def ModuleDef.noUplus (m : ModuleDef) : Bool :=
  m.params.all (fun d => d.all Param.noUplus) && m.ports.all PortD.noUplus && m.items.all MItem.noUplus

/-- The declarations of a function or task one by one. -/
def fnSplit (ds : List (List DItem)) : List (List DItem) := ds.flatten.map (fun d => [d])

/-- An item of a declaration on its own. -/
def DItem.piece : DItem → MItem
  | .assign l r => .assign l r
  | d => .decl [d]

mutual
/-- The item with its declarations one by one. -/
def MItem.split : MItem → List MItem
  | .decl ds => ds.map DItem.piece
  | .assign l r => [.assign l r]
  | .always k ss s => [.always k ss s]
  | .initial s => [.initial s]
  | .insts md ps is => [.insts md ps is]
  | .func n r ds s => [.func n r (fnSplit ds) s]
  | .task n ds s => [.task n (fnSplit ds) s]
  | .gen is => [.gen (MItem.splits is)]
  | .gif c t => t.split.map (.gif c)
  | .gife c t f => t.split.flatMap (fun t' => f.split.map (.gife c t'))
  | .gfor pl pr c ql qr b => b.split.map (.gfor pl pr c ql qr)
  | .gblock n is => [.gblock n (MItem.splits is)]
/-- `MItem.split` on lists. -/
def MItem.splits : List MItem → List MItem
  | [] => []
  | i :: is => i.split ++ MItem.splits is
end

/-- The module with its declarations one by one. -/
def ModuleDef.split (m : ModuleDef) : ModuleDef := { m with items := m.items.flatMap MItem.split }

theorem omap_id {α : Type} {f : α → α} {p : α → Bool} {o : Option α} (h : ∀ x, p x = true → f x = x) (ho : o.all p = true) : o.map f = o := by
  cases o with
  | none => rfl
  | some x => simp only [Option.map_some, h x (by simpa using ho)]

theorem lmap_id {α : Type} {f : α → α} {p : α → Bool} {l : List α} (h : ∀ x, p x = true → f x = x) (hl : l.all p = true) : l.map f = l := by
  rw [List.all_eq_true] at hl
  exact (List.map_congr_left (fun x hx => h x (hl x hx))).trans (List.map_id' l)

theorem rngErase_id (r : WRange) (h : rngNoUplus r = true) : rngErase r = r := by
  simp only [rngNoUplus, Bool.and_eq_true] at h
  simp only [rngErase, erase_id _ h.1, erase_id _ h.2]

theorem varErase_id (v : Var) (h : v.noUplus = true) : v.erase = v := by
  simp only [Var.noUplus, Bool.and_eq_true] at h
  simp only [Var.erase, omap_id rngErase_id h.1, omap_id (f := List.map rngErase) (fun x hx => lmap_id rngErase_id hx) h.2]

theorem paramErase_id (p : Param) (h : p.noUplus = true) : p.erase = p := by
  simp only [Param.noUplus, Bool.and_eq_true] at h
  simp only [Param.erase, omap_id rngErase_id h.2, erase_id _ h.1]

theorem ditemErase_id (d : DItem) (h : d.noUplus = true) : d.erase = d := by
  cases d with
  | var v => simp only [DItem.erase, varErase_id v h]
  | int n e => simp only [DItem.erase, omap_id erase_id h]
  | real n => rfl
  | genvar n => rfl
  | param l p => simp only [DItem.erase, paramErase_id p h]
  | supply n o w s => simp only [DItem.erase, omap_id rngErase_id h]
  | assign l r =>
    simp only [DItem.noUplus, Bool.and_eq_true] at h
    simp only [DItem.erase, erase_id _ h.1, erase_id _ h.2]

theorem sensErase_id (s : SensItem) (h : s.noUplus = true) : s.erase = s := by
  cases s <;> first | rfl | simp only [SensItem.erase, erase_id _ h]

theorem pargErase_id (a : PArg) (h : a.noUplus = true) : a.erase = a := by
  simp only [PArg.erase, omap_id erase_id h]

theorem instErase_id (i : Inst) (h : i.noUplus = true) : i.erase = i := by
  simp only [Inst.noUplus, Bool.and_eq_true] at h
  simp only [Inst.erase, omap_id rngErase_id h.1, lmap_id pargErase_id h.2]

theorem noUplusL_iff (is : List MItem) : MItem.noUplusL is = true ↔ ∀ i ∈ is, i.noUplus = true := by
  induction is with
  | nil => exact ⟨fun _ _ h => absurd h (by simp), fun _ => rfl⟩
  | cons i is ih =>
    rw [show MItem.noUplusL (i :: is) = (i.noUplus && MItem.noUplusL is) from rfl, Bool.and_eq_true, ih]
    simp

theorem splits_eq (is : List MItem) : MItem.splits is = is.flatMap MItem.split := by
  induction is with
  | nil => rfl
  | cons i is ih => rw [show MItem.splits (i :: is) = i.split ++ MItem.splits is from rfl, ih, List.flatMap_cons]

theorem norms_splits {is : List MItem} (h : ∀ i ∈ is, i.norm = i.split) : MItem.norms is = MItem.splits is := by
  induction is with
  | nil => rfl
  | cons i is ih =>
    rw [show MItem.splits (i :: is) = i.split ++ MItem.splits is from rfl, show MItem.norms (i :: is) = i.norm ++ MItem.norms is from rfl,
      h i (by simp), ih (fun j hj => h j (by simp [hj]))]

theorem fnNorm_split {ds : List (List DItem)} (h : ds.flatten.all DItem.noUplus = true) : fnNorm ds = fnSplit ds := by
  rw [List.all_eq_true] at h
  exact List.map_congr_left (fun d hd => by rw [ditemErase_id d (h d hd)])

theorem mitemNorm_split (i : MItem) : i.noUplus = true → i.norm = i.split := by
  induction i using MItem.ind with
  | decl ds =>
    intro h
    have h : ds.all DItem.noUplus = true := h
    rw [List.all_eq_true] at h
    rw [norm_decl]
    show _ = ds.map DItem.piece
    refine List.map_congr_left (fun d hd => ?_)
    have := ditemErase_id d (h d hd)
    cases d <;> first | (simp only [DItem.item, DItem.piece, this]; done) | (simp only [DItem.erase, DItem.assign.injEq] at this; simp only [DItem.item, DItem.piece, this.1, this.2])
  | assign l r =>
    intro h
    have h : (l.noUplus && r.noUplus) = true := h
    rw [Bool.and_eq_true] at h
    show [MItem.assign l.erase r.erase] = [MItem.assign l r]
    rw [erase_id _ h.1, erase_id _ h.2]
  | always k ss s =>
    intro h
    have h : (ss.all SensItem.noUplus && s.noUplus) = true := h
    rw [Bool.and_eq_true] at h
    show [MItem.always k (ss.map SensItem.erase) s.erase] = [MItem.always k ss s]
    rw [lmap_id sensErase_id h.1, serase_id _ h.2]
  | initial s =>
    intro h
    show [MItem.initial s.erase] = [MItem.initial s]
    rw [serase_id _ h]
  | insts md ps is =>
    intro h
    have h : (ps.all PArg.noUplus && is.all Inst.noUplus) = true := h
    rw [Bool.and_eq_true] at h
    show [MItem.insts md (ps.map PArg.erase) (is.map Inst.erase)] = [MItem.insts md ps is]
    rw [lmap_id pargErase_id h.1, lmap_id instErase_id h.2]
  | func n r ds s =>
    intro h
    have h : ((rngNoUplus r && ds.flatten.all DItem.noUplus) && s.noUplus) = true := h
    simp only [Bool.and_eq_true] at h
    show [MItem.func n (rngErase r) (fnNorm ds) s.erase] = [MItem.func n r (fnSplit ds) s]
    rw [rngErase_id _ h.1.1, fnNorm_split h.1.2, serase_id _ h.2]
  | task n ds s =>
    intro h
    have h : (ds.flatten.all DItem.noUplus && s.noUplus) = true := h
    simp only [Bool.and_eq_true] at h
    show [MItem.task n (fnNorm ds) s.erase] = [MItem.task n (fnSplit ds) s]
    rw [fnNorm_split h.1, serase_id _ h.2]
  | gen is ih =>
    intro h
    have h := (noUplusL_iff is).mp h
    show [MItem.gen (MItem.norms is)] = [MItem.gen (MItem.splits is)]
    rw [norms_splits (fun i hi => ih i hi (h i hi))]
  | gif c t ih =>
    intro h
    have h : (c.noUplus && t.noUplus) = true := h
    simp only [Bool.and_eq_true] at h
    show t.norm.map (MItem.gif c.erase) = t.split.map (MItem.gif c)
    rw [ih h.2, erase_id _ h.1]
  | gife c t f iht ihf =>
    intro h
    have h : (c.noUplus && (t.noUplus && f.noUplus)) = true := h
    simp only [Bool.and_eq_true] at h
    show t.norm.flatMap (fun t' => f.norm.map (MItem.gife c.erase t')) = t.split.flatMap (fun t' => f.split.map (MItem.gife c t'))
    rw [iht h.2.1, ihf h.2.2, erase_id _ h.1]
  | gfor pl pr c ql qr b ih =>
    intro h
    have h : ((pl.noUplus && pr.noUplus && c.noUplus && ql.noUplus && qr.noUplus) && b.noUplus) = true := h
    simp only [Bool.and_eq_true] at h
    show b.norm.map (MItem.gfor pl.erase pr.erase c.erase ql.erase qr.erase) = b.split.map (MItem.gfor pl pr c ql qr)
    obtain ⟨⟨⟨⟨⟨h1, h2⟩, h3⟩, h4⟩, h5⟩, h6⟩ := h
    rw [ih h6, erase_id _ h1, erase_id _ h2, erase_id _ h3, erase_id _ h4, erase_id _ h5]
  | gblock n is ih =>
    intro h
    have h := (noUplusL_iff is).mp h
    show [MItem.gblock n (MItem.norms is)] = [MItem.gblock n (MItem.splits is)]
    rw [norms_splits (fun i hi => ih i hi (h i hi))]

theorem portErase_id (p : PortD) (h : p.noUplus = true) : p.erase = p := by
  cases p with
  | port n => rfl
  | io f s =>
    simp only [PortD.noUplus, Bool.and_eq_true] at h
    simp only [PortD.erase, varErase_id f h.1, omap_id varErase_id h.2]
  | none_ => rfl

theorem norm_split (m : ModuleDef) (h : m.noUplus = true) : m.norm = m.split := by
  simp only [ModuleDef.noUplus, Bool.and_eq_true] at h
  obtain ⟨⟨h1, h2⟩, h3⟩ := h
  have hp : m.params.map (List.map Param.erase) = m.params := lmap_id (p := fun d : List Param => d.all Param.noUplus) (fun d hd => lmap_id paramErase_id hd) h1
  have hi : m.items.flatMap MItem.norm = m.items.flatMap MItem.split := by
    rw [List.all_eq_true] at h3
    rw [List.flatMap_def, List.flatMap_def, List.map_congr_left (fun i hi => mitemNorm_split i (h3 i hi))]
  simp only [ModuleDef.norm, ModuleDef.split, hp, lmap_id portErase_id h2, hi]

/-- **C70** (part): without unary plus operators exactly the modules come back, with their declarations one by one. -/
theorem C70_split_partial (ms : List ModuleDef) (hne : ms ≠ []) (h : ∀ m ∈ ms, m.OK) (hu : ∀ m ∈ ms, m.noUplus = true) :
    SourceParsesTo (sourceCode ms) (ms.map ModuleDef.split) := by
  have := source_parses ms hne h
  rwa [List.map_congr_left (fun m hm => norm_split m (hu m hm))] at this

theorem fnSplit_flatten (ds : List (List DItem)) : (fnSplit ds).flatten = ds.flatten := by
  rw [fnSplit, ← List.flatMap_def, List.flatMap_singleton']

theorem fnSplit_twice (ds : List (List DItem)) : fnSplit (fnSplit ds) = fnSplit ds := by
  show (fnSplit ds).flatten.map _ = _
  rw [fnSplit_flatten]; rfl

theorem piece_split (d : DItem) : d.piece.split = [d.piece] := by cases d <;> rfl

theorem piece_at {d : DItem} (h : d.OK) (br : Bool) :
    d.piece.At br ∧ d.piece.manyDecl = false ∧ d.piece.openEnd = false ∧ d.piece.endsBlock = false ∧ d.piece.newLine = false := by
  cases d <;> first
    | exact ⟨⟨h, fun _ => rfl⟩, rfl, rfl, rfl, rfl⟩
    | exact ⟨⟨fun x hx => (List.mem_singleton.mp hx).symm ▸ h, fun _ => rfl⟩, rfl, rfl, rfl, rfl⟩

theorem splits_ats {is : List MItem} (h : ∀ i ∈ is, ∀ x ∈ i.split, x.At false) : MItem.Ats (MItem.splits is) := by
  rw [ats_iff, splits_eq]
  intro x hx
  obtain ⟨i, hi, hx⟩ := List.mem_flatMap.mp hx
  exact h i hi x hx

/-- The pieces of a declaration, or the only piece of another item. -/
theorem at_split (i : MItem) : ∀ br, i.At br →
    (∃ ds, i = .decl ds ∧ ∀ d ∈ ds, d.OK) ∨
    ∃ x, i.split = [x] ∧ x.At br ∧ x.manyDecl = false ∧ x.openEnd = i.openEnd ∧ x.endsBlock = i.endsBlock ∧ x.newLine = i.newLine := by
  have one : ∀ {i : MItem} {br : Bool}, i.At br → ∀ {x y : MItem}, i = y → i.split = [x] → x = y → x.manyDecl = false →
      ∃ x, i.split = [x] ∧ x.At br ∧ x.manyDecl = false ∧ x.openEnd = i.openEnd ∧ x.endsBlock = i.endsBlock ∧ x.newLine = i.newLine := by
    rintro i br h x y rfl hs rfl hm
    exact ⟨_, hs, h, hm, rfl, rfl, rfl⟩
  have branch : ∀ {t : MItem}, t.At true → ((∃ ds, t = .decl ds ∧ ∀ d ∈ ds, d.OK) ∨
      ∃ x, t.split = [x] ∧ x.At true ∧ x.manyDecl = false ∧ x.openEnd = t.openEnd ∧ x.endsBlock = t.endsBlock ∧ x.newLine = t.newLine) →
      ∃ x, t.split = [x] ∧ x.At true ∧ x.openEnd = t.openEnd ∧ x.endsBlock = t.endsBlock := by
    intro t ht h
    rcases h with ⟨ds, rfl, hds⟩ | ⟨x, h1, h2, _, h4, h5, _⟩
    · have hm : (MItem.decl ds).manyDecl = false := ht.2 rfl
      have hl : ds.length = 1 := by
        have : (ds.length != 1) = false := hm
        simpa using this
      obtain ⟨d, rfl⟩ := List.length_eq_one_iff.mp hl
      have hp := piece_at (hds d (by simp)) true
      exact ⟨d.piece, rfl, hp.1, hp.2.2.1, hp.2.2.2.1⟩
    · exact ⟨x, h1, h2, h4, h5⟩
  induction i using MItem.ind with
  | decl ds => intro br h; exact .inl ⟨ds, rfl, h.1⟩
  | assign l r => intro br h; exact .inr (one h rfl rfl rfl rfl)
  | always k ss s => intro br h; exact .inr (one h rfl rfl rfl rfl)
  | initial s => intro br h; exact .inr (one h rfl rfl rfl rfl)
  | insts md ps is => intro br h; exact .inr (one h rfl rfl rfl rfl)
  | func n r ds s =>
    intro br h
    obtain ⟨⟨h1, h2, h3, h4⟩, _⟩ := h
    exact .inr ⟨.func n r (fnSplit ds) s, rfl, ⟨⟨h1, h2, (fnSplit_flatten ds).symm ▸ h3, (fnSplit_flatten ds).symm ▸ h4⟩, fun _ => rfl⟩, rfl, rfl, rfl, rfl⟩
  | task n ds s =>
    intro br h
    obtain ⟨⟨h1, h4⟩, _⟩ := h
    exact .inr ⟨.task n (fnSplit ds) s, rfl, ⟨⟨h1, (fnSplit_flatten ds).symm ▸ h4⟩, fun _ => rfl⟩, rfl, rfl, rfl, rfl⟩
  | gen is ih => intro br h; exact h.elim
  | gif c t ih =>
    intro br h
    obtain ⟨h1, h2⟩ := h
    obtain ⟨x, hx, hx1, hx2, hx3⟩ := branch h2 (ih true h2)
    refine .inr ⟨.gif c x, ?_, ⟨h1, hx1⟩, rfl, rfl, rfl, rfl⟩
    show t.split.map (MItem.gif c) = _
    rw [hx]; rfl
  | gife c t f iht ihf =>
    intro br h
    obtain ⟨h1, h2, h3, h4⟩ := h
    obtain ⟨x, hx, hx1, hx2, hx3⟩ := branch h2 (iht true h2)
    obtain ⟨y, hy, hy1, hy2, hy3⟩ := branch h3 (ihf true h3)
    refine .inr ⟨.gife c x y, ?_, ⟨h1, hx1, hy1, hx2.trans h4⟩, rfl, hy2, hy3, rfl⟩
    show t.split.flatMap (fun t' => f.split.map (MItem.gife c t')) = _
    rw [hx, hy]; rfl
  | gfor pl pr c ql qr b ih =>
    intro br h
    obtain ⟨h1, h2⟩ := h
    obtain ⟨x, hx, hx1, hx2, hx3⟩ := branch h2 (ih true h2)
    refine .inr ⟨.gfor pl pr c ql qr x, ?_, ⟨h1, hx1⟩, rfl, hx2, hx3, rfl⟩
    show b.split.map (MItem.gfor pl pr c ql qr) = _
    rw [hx]; rfl
  | gblock n is ih =>
    intro br h
    obtain ⟨h1, h2, h3⟩ := h
    refine .inr ⟨.gblock n (MItem.splits is), rfl, ⟨h1, h2, splits_ats ?_⟩, rfl, rfl, rfl, rfl⟩
    intro i hi x hx
    rcases ih i hi false ((ats_iff is).mp h3 i hi) with ⟨ds, rfl, hds⟩ | ⟨y, hy, hy1, _⟩
    · obtain ⟨d, hd, rfl⟩ := List.mem_map.mp (show x ∈ ds.map DItem.piece from hx)
      exact (piece_at (hds d hd) false).1
    · rw [hy] at hx
      rw [List.mem_singleton.mp hx]; exact hy1

theorem ats_splits {is : List MItem} (h : MItem.Ats is) : MItem.Ats (MItem.splits is) := by
  refine splits_ats (fun i hi x hx => ?_)
  rcases at_split i false ((ats_iff is).mp h i hi) with ⟨ds, rfl, hds⟩ | ⟨y, hy, hy1, _⟩
  · obtain ⟨d, hd, rfl⟩ := List.mem_map.mp (show x ∈ ds.map DItem.piece from hx)
    exact (piece_at (hds d hd) false).1
  · rw [hy] at hx
    rw [List.mem_singleton.mp hx]; exact hy1

/-- `Spaced` after an item, of which `b` says whether it ends with `end`. -/
def SepB : Bool → List MItem → Prop
  | _, [] => True
  | b, i :: r => (b = true → i.newLine = true) ∧ SepB i.endsBlock r

theorem sepB_iff (is : List MItem) : Spaced is ↔ SepB false is := by
  have : ∀ is (i : MItem), Spaced (i :: is) ↔ SepB i.endsBlock is := by
    intro is
    induction is with
    | nil => intro i; exact ⟨fun _ => trivial, fun _ => trivial⟩
    | cons j r ih => intro i; exact and_congr_right (fun _ => ih j)
  cases is with
  | nil => exact ⟨fun _ => trivial, fun _ => trivial⟩
  | cons i r => exact (this r i).trans ⟨fun h => ⟨fun h' => (by simp at h'), h⟩, fun h => h.2⟩

theorem sep_splits {is : List MItem} (ha : MItem.Ats is) (h : Spaced is) : Spaced (MItem.splits is) := by
  rw [sepB_iff] at h ⊢
  suffices ∀ b, SepB b is → SepB b (MItem.splits is) from this _ h
  clear h
  induction is with
  | nil => intro b h; trivial
  | cons i r ih =>
    intro b h
    obtain ⟨h1, h2⟩ := h
    have ih := ih ha.2 _ h2
    show SepB b (i.split ++ MItem.splits r)
    rcases at_split i false ha.1 with ⟨ds, rfl, hds⟩ | ⟨y, hy, _, _, _, hy2, hy3⟩
    · have hb : b = false := by
        cases b with
        | false => rfl
        | true => exact absurd (h1 rfl) (by simp [MItem.newLine])
      subst hb
      show SepB false (ds.map DItem.piece ++ _)
      clear h1 h2
      induction ds with
      | nil => exact ih
      | cons d ds ihd =>
        refine ⟨fun h' => (by simp at h'), ?_⟩
        rw [(piece_at (hds d (by simp)) false).2.2.2.1]
        exact ihd (fun x hx => hds x (by simp [hx])) ⟨⟨fun x hx => hds x (by simp [hx]), fun h' => (by simp at h')⟩, ha.2⟩ ih
    · rw [hy]
      exact ⟨fun hb => hy3.trans (h1 hb), hy2.symm ▸ ih⟩

theorem item_split_OK {i : MItem} (h : i.OK) : ∀ x ∈ i.split, x.OK := by
  intro x hx
  cases i with
  | decl ds =>
    obtain ⟨d, hd, rfl⟩ := List.mem_map.mp (show x ∈ ds.map DItem.piece from hx)
    have := (show ∀ d ∈ ds, d.OK from h) d hd
    cases d with
    | assign l r => exact this
    | _ => exact fun x hx => by rw [List.mem_singleton.mp hx]; exact this
  | func n r ds s =>
    obtain ⟨h1, h2, h3, h4⟩ := h
    rw [List.mem_singleton.mp hx]
    exact ⟨h1, h2, (fnSplit_flatten ds).symm ▸ h3, (fnSplit_flatten ds).symm ▸ h4⟩
  | task n ds s =>
    obtain ⟨h1, h4⟩ := h
    rw [List.mem_singleton.mp hx]
    exact ⟨h1, (fnSplit_flatten ds).symm ▸ h4⟩
  | gen is =>
    obtain ⟨h1, h2⟩ := h
    rw [List.mem_singleton.mp hx]
    exact ⟨sep_splits h2 h1, ats_splits h2⟩
  | gif c t => exact h.elim
  | gife c t f => exact h.elim
  | gfor pl pr c ql qr b => exact h.elim
  | gblock n is => exact h.elim
  | assign l r => rw [List.mem_singleton.mp hx]; exact h
  | always k ss s => rw [List.mem_singleton.mp hx]; exact h
  | initial s => rw [List.mem_singleton.mp hx]; exact h
  | insts md ps is => rw [List.mem_singleton.mp hx]; exact h

theorem split_OK {m : ModuleDef} (h : m.OK) : m.split.OK := by
  obtain ⟨h1, h2, h3, h4⟩ := h
  refine ⟨h1, h2, h3, ?_⟩
  intro i hi
  simp only [ModuleDef.split, List.mem_flatMap] at hi
  obtain ⟨j, hj, hi⟩ := hi
  exact item_split_OK (h4 j hj) i hi

theorem flatMap_single {α : Type} {f : α → List α} {l : List α} (h : ∀ x ∈ l, f x = [x]) : l.flatMap f = l := by
  induction l with
  | nil => rfl
  | cons a l ih => rw [List.flatMap_cons, h a (by simp), ih (fun x hx => h x (by simp [hx]))]; rfl

theorem mem_split_split (i : MItem) : ∀ x ∈ i.split, x.split = [x] := by
  have all : ∀ {is : List MItem}, (∀ i ∈ is, ∀ x ∈ i.split, x.split = [x]) → MItem.splits (MItem.splits is) = MItem.splits is := by
    intro is h
    rw [splits_eq (MItem.splits is)]
    refine flatMap_single (fun x hx => ?_)
    rw [splits_eq] at hx
    obtain ⟨i, hi, hx⟩ := List.mem_flatMap.mp hx
    exact h i hi x hx
  induction i using MItem.ind with
  | decl ds =>
    intro x hx
    obtain ⟨d, hd, rfl⟩ := List.mem_map.mp (show x ∈ ds.map DItem.piece from hx)
    exact piece_split d
  | assign l r => intro x hx; rw [List.mem_singleton.mp hx]; rfl
  | always k ss s => intro x hx; rw [List.mem_singleton.mp hx]; rfl
  | initial s => intro x hx; rw [List.mem_singleton.mp hx]; rfl
  | insts md ps is => intro x hx; rw [List.mem_singleton.mp hx]; rfl
  | func n r ds s =>
    intro x hx
    rw [List.mem_singleton.mp hx]
    show [MItem.func n r (fnSplit (fnSplit ds)) s] = _
    rw [fnSplit_twice]
  | task n ds s =>
    intro x hx
    rw [List.mem_singleton.mp hx]
    show [MItem.task n (fnSplit (fnSplit ds)) s] = _
    rw [fnSplit_twice]
  | gen is ih =>
    intro x hx
    rw [List.mem_singleton.mp hx]
    show [MItem.gen (MItem.splits (MItem.splits is))] = _
    rw [all ih]
  | gif c t ih =>
    intro x hx
    obtain ⟨y, hy, rfl⟩ := List.mem_map.mp (show x ∈ t.split.map (MItem.gif c) from hx)
    show y.split.map (MItem.gif c) = _
    rw [ih y hy]; rfl
  | gife c t f iht ihf =>
    intro x hx
    obtain ⟨y, hy, hx⟩ := List.mem_flatMap.mp (show x ∈ t.split.flatMap (fun t' => f.split.map (MItem.gife c t')) from hx)
    obtain ⟨z, hz, rfl⟩ := List.mem_map.mp hx
    show y.split.flatMap (fun t' => z.split.map (MItem.gife c t')) = _
    rw [iht y hy, ihf z hz]; rfl
  | gfor pl pr c ql qr b ih =>
    intro x hx
    obtain ⟨y, hy, rfl⟩ := List.mem_map.mp (show x ∈ b.split.map (MItem.gfor pl pr c ql qr) from hx)
    show y.split.map (MItem.gfor pl pr c ql qr) = _
    rw [ih y hy]; rfl
  | gblock n is ih =>
    intro x hx
    rw [List.mem_singleton.mp hx]
    show [MItem.gblock n (MItem.splits (MItem.splits is))] = _
    rw [all ih]

theorem mitem_split_split (i : MItem) : i.split.flatMap MItem.split = i.split := flatMap_single (mem_split_split i)

theorem split_split (m : ModuleDef) : m.split.split = m.split := by
  simp only [ModuleDef.split, List.flatMap_assoc]
  congr 1
  exact congrArg (fun f => m.items.flatMap f) (funext mitem_split_split)

theorem item_split_noUplus (i : MItem) : i.noUplus = true → ∀ x ∈ i.split, x.noUplus = true := by
  have all : ∀ {is : List MItem}, (∀ i ∈ is, i.noUplus = true → ∀ x ∈ i.split, x.noUplus = true) → MItem.noUplusL is = true →
      MItem.noUplusL (MItem.splits is) = true := by
    intro is h hu
    rw [noUplusL_iff] at hu ⊢
    intro x hx
    rw [splits_eq] at hx
    obtain ⟨i, hi, hx⟩ := List.mem_flatMap.mp hx
    exact h i hi (hu i hi) x hx
  induction i using MItem.ind with
  | decl ds =>
    intro h x hx
    obtain ⟨d, hd, rfl⟩ := List.mem_map.mp (show x ∈ ds.map DItem.piece from hx)
    have h : ds.all DItem.noUplus = true := h
    have := List.all_eq_true.mp h d hd
    cases d with
    | assign l r => exact this
    | _ =>
      show ([_] : List DItem).all DItem.noUplus = true
      rw [List.all_cons, this]; rfl
  | assign l r => intro h x hx; rw [List.mem_singleton.mp hx]; exact h
  | always k ss s => intro h x hx; rw [List.mem_singleton.mp hx]; exact h
  | initial s => intro h x hx; rw [List.mem_singleton.mp hx]; exact h
  | insts md ps is => intro h x hx; rw [List.mem_singleton.mp hx]; exact h
  | func n r ds s =>
    intro h x hx
    rw [List.mem_singleton.mp hx]
    show ((rngNoUplus r && (fnSplit ds).flatten.all DItem.noUplus) && s.noUplus) = true
    rw [fnSplit_flatten]; exact h
  | task n ds s =>
    intro h x hx
    rw [List.mem_singleton.mp hx]
    show ((fnSplit ds).flatten.all DItem.noUplus && s.noUplus) = true
    rw [fnSplit_flatten]; exact h
  | gen is ih =>
    intro h x hx
    rw [List.mem_singleton.mp hx]
    exact all ih h
  | gif c t ih =>
    intro h x hx
    have h : (c.noUplus && t.noUplus) = true := h
    obtain ⟨y, hy, rfl⟩ := List.mem_map.mp (show x ∈ t.split.map (MItem.gif c) from hx)
    rw [Bool.and_eq_true] at h
    show (c.noUplus && y.noUplus) = true
    rw [h.1, ih h.2 y hy]; rfl
  | gife c t f iht ihf =>
    intro h x hx
    have h : (c.noUplus && (t.noUplus && f.noUplus)) = true := h
    obtain ⟨y, hy, hx⟩ := List.mem_flatMap.mp (show x ∈ t.split.flatMap (fun t' => f.split.map (MItem.gife c t')) from hx)
    obtain ⟨z, hz, rfl⟩ := List.mem_map.mp hx
    rw [Bool.and_eq_true, Bool.and_eq_true] at h
    show (c.noUplus && (y.noUplus && z.noUplus)) = true
    rw [h.1, iht h.2.1 y hy, ihf h.2.2 z hz]; rfl
  | gfor pl pr c ql qr b ih =>
    intro h x hx
    have h : ((pl.noUplus && pr.noUplus && c.noUplus && ql.noUplus && qr.noUplus) && b.noUplus) = true := h
    obtain ⟨y, hy, rfl⟩ := List.mem_map.mp (show x ∈ b.split.map (MItem.gfor pl pr c ql qr) from hx)
    rw [Bool.and_eq_true] at h
    show ((pl.noUplus && pr.noUplus && c.noUplus && ql.noUplus && qr.noUplus) && y.noUplus) = true
    rw [h.1, ih h.2 y hy]; rfl
  | gblock n is ih =>
    intro h x hx
    rw [List.mem_singleton.mp hx]
    exact all ih h

theorem split_noUplus {m : ModuleDef} (h : m.noUplus = true) : m.split.noUplus = true := by
  simp only [ModuleDef.noUplus, Bool.and_eq_true] at h ⊢
  refine ⟨h.1, ?_⟩
  have h3 := h.2
  rw [List.all_eq_true] at h3 ⊢
  intro i hi
  simp only [ModuleDef.split, List.mem_flatMap] at hi
  obtain ⟨j, hj, hi⟩ := hi
  exact item_split_noUplus j (h3 j hj) i hi

/-- **C70** (part): printing and parsing a second time changes nothing any more: if the first round gave `ms'`, the second
gives `ms'` again. -/
theorem C70_stable_partial (ms ms' : List ModuleDef) (hne : ms ≠ []) (h : ∀ m ∈ ms, m.OK) (hu : ∀ m ∈ ms, m.noUplus = true)
    (h1 : SourceParsesTo (sourceCode ms) ms') : SourceParsesTo (sourceCode ms') ms' := by
  have e := h1.unique (C70_split_partial ms hne h hu)
  subst e
  have := C70_split_partial (ms.map ModuleDef.split) (by simpa using hne)
    (by intro m hm; obtain ⟨m', hm', rfl⟩ := List.mem_map.mp hm; exact split_OK (h m' hm'))
    (by intro m hm; obtain ⟨m', hm', rfl⟩ := List.mem_map.mp hm; exact split_noUplus (hu m' hm'))
  simpa [split_split, Function.comp_def] using this

/-- **C70** (part): two lists of modules without unary plus, with declarations one by one, that are printed the same are
the same. -/
theorem C70_injective_partial (ms ms' : List ModuleDef) (hne : ms ≠ []) (hne' : ms' ≠ []) (h : ∀ m ∈ ms, m.OK) (h' : ∀ m ∈ ms', m.OK)
    (hu : ∀ m ∈ ms, m.noUplus = true) (hu' : ∀ m ∈ ms', m.noUplus = true) (hc : sourceCode ms = sourceCode ms') :
    ms.map ModuleDef.split = ms'.map ModuleDef.split := by
  have h1 := C70_split_partial ms hne h hu
  have h2 := C70_split_partial ms' hne' h' hu'
  rw [hc] at h1
  exact h1.unique h2

/-- `n` actions of the parser. -/
def mrun : Nat → List MSym → List OSym → List Sym → List Tok → MRes
  | 0, m, o, i, t => some (m, o, i, t)
  | n + 1, m, o, i, t => match mstep m o i t with | none => none | some (m', o', i', t') => mrun n m' o' i' t'

/-- A run that gets stuck gives no modules. -/
theorem mstuck_none {n : Nat} : ∀ {m o i t}, mrun n m o i t = none → mparseN n m o i t = none → ∀ k, mparseN k m o i t = none := by
  induction n with
  | zero => intro m o i t h; simp [mrun] at h
  | succ n ih =>
    intro m o i t h1 h2 k
    cases k with
    | zero => rfl
    | succ k =>
      by_cases hf : ∀ ms, ¬ (m = [.defs ms] ∧ t = [])
      · rw [mparseN_next _ hf] at h2 ⊢
        unfold mrun at h1
        cases hs : mstep m o i t with
        | none => rfl
        | some x =>
          simp only [hs] at h1
          simp only [hs, Option.bind_some] at h2 ⊢
          exact ih h1 h2 k
      · simp only [not_forall, Classical.not_not] at hf
        obtain ⟨ms, rfl, rfl⟩ := hf
        by_cases he : ms = []
        · subst he; simp [mparseN]
        · rw [mparseN_final _ he] at h2; simp at h2

theorem not_parsed {text : Str} {ts : List Tok} (n : Nat) (hl : lex text = some ts) (h1 : mrun n [.defs []] [] [] ts = none)
    (h2 : mparseN n [.defs []] [] [] ts = none) : ¬ ∃ ms, SourceParsesTo text ms := by
  rintro ⟨ms, ts', hl', k, hk⟩
  rw [hl] at hl'
  simp only [Option.some.injEq] at hl'
  subst hl'
  rw [mstuck_none h1 h2 k] at hk
  simp at hk

/-- A module `m` with these items and no ports. -/
def c70m (is : List MItem) : ModuleDef := ⟨['m'], [], [], is⟩

/-- The tokens in front of the items of `c70m`, and after them. -/
def c70t (ts : List Tok) : List Tok :=
  [.kw "module".toList, .id ['m'], .p .lparen, .p .rparen, .p .semicolon] ++ ts ++ [.kw "endmodule".toList]

/-- **C70** fails for `always_ff` (as for `always_comb` and `always_latch`): there is no method for it, the keyword and the
parentheses are not printed, and `always_ff @(posedge c) x <= y;` becomes `posedge cx <= y;`, which is not parsed. -/
theorem C70_fails_always_ff :
    ¬ ∃ ms, SourceParsesTo (sourceCode [c70m [.always .ff [.posedge (c65n 'c')] (.nb (c65n 'x') (c65n 'y'))]]) ms :=
  not_parsed (ts := c70t [.kw "posedge".toList, .id "cx".toList, .p .le, .id ['y'], .p .semicolon]) 20
    (by decide +kernel) rfl rfl

/-- **C70** fails for `#(parameter A = 1, B = 2)`: the two parameters of one declaration are printed without a comma between
them (`parameter A = 1parameter B = 2`), which is not parsed. -/
theorem C70_fails_header_params :
    ¬ ∃ ms, SourceParsesTo (sourceCode [⟨['m'], [[⟨['A'], .intc ['1'], none, false⟩, ⟨['B'], .intc ['2'], none, false⟩]], [], []⟩]) ms :=
  not_parsed (ts := [.kw "module".toList, .id ['m'], .p .delay, .p .lparen, .kw "parameter".toList, .id ['A'], .p .equals, .int ['1'],
    .kw "parameter".toList, .id ['B'], .p .equals, .int ['2'], .p .rparen, .p .lparen, .p .rparen, .p .semicolon, .kw "endmodule".toList]) 40
    (by decide +kernel) rfl rfl

/-- **C70** fails for `integer i = 5;`: the value is not printed. -/
theorem C70_fails_integer :
    SourceParsesTo (sourceCode [c70m [.decl [.int ['i'] (some (.intc ['5']))]]]) [c70m [.decl [.int ['i'] none]]] :=
  ⟨c70t [.kw "integer".toList, .id ['i'], .p .semicolon], by decide +kernel, 20, rfl⟩

/-- **C70** fails for `supply1 v;`: only the digit is printed. -/
theorem C70_fails_supply :
    (DItem.supply ['v'] true none false).code = ['1'] ∧
    ¬ ∃ ms, SourceParsesTo (sourceCode [c70m [.decl [.supply ['v'] true none false]]]) ms :=
  ⟨rfl, not_parsed (ts := c70t [.int ['1']]) 20 (by decide +kernel) rfl rfl⟩

/-- **C70** fails for `parameter [7:0] A = "a";`: the width of a parameter whose value is a string is not printed. -/
theorem C70_fails_string_width :
    SourceParsesTo (sourceCode [c70m [.decl [.param false ⟨['A'], .strc ['a'], some (.intc ['7'], .intc ['0']), false⟩]]])
      [c70m [.decl [.param false ⟨['A'], .strc ['a'], none, false⟩]]] :=
  ⟨c70t [.kw "parameter".toList, .id ['A'], .p .equals, .str "\"a\"".toList, .p .semicolon], by decide +kernel, 20, rfl⟩

/-- **C70** fails for `#(parameter A = "a;b")`: semicolons are removed from the header, also those in strings. -/
theorem C70_fails_semicolon :
    SourceParsesTo (sourceCode [⟨['m'], [[⟨['A'], .strc "a;b".toList, none, false⟩]], [], []⟩])
      [⟨['m'], [[⟨['A'], .strc "ab".toList, none, false⟩]], [], []⟩] :=
  ⟨[.kw "module".toList, .id ['m'], .p .delay, .p .lparen, .kw "parameter".toList, .id ['A'], .p .equals, .str "\"ab\"".toList, .p .rparen,
    .p .lparen, .p .rparen, .p .semicolon, .kw "endmodule".toList], by decide +kernel, 40, rfl⟩

/-- **C70** fails for `real x;`: every real variable is named `real`, and `real real;` is not parsed. -/
theorem C70_fails_real :
    SourceParsesTo "module m(); real x; endmodule".toList [c70m [.decl [.real "real".toList]]] ∧
    ¬ ∃ ms, SourceParsesTo (sourceCode [c70m [.decl [.real "real".toList]]]) ms :=
  ⟨⟨c70t [.kw "real".toList, .id ['x'], .p .semicolon], by decide +kernel, 20, rfl⟩,
   not_parsed (ts := c70t [.kw "real".toList, .kw "real".toList, .p .semicolon]) 20 (by decide +kernel) rfl rfl⟩

/-- **C70** fails for generate constructs in which something follows a block: the items are printed without anything
between them, `generate for(i = 0; c; i = d) begin assign x = y; end assign a = b; endgenerate` becomes `.. endassign a = b; ..`,
which is not parsed. -/
theorem C70_fails_generate :
    ¬ ∃ ms, SourceParsesTo (sourceCode [c70m [.gen [.gfor (c65n 'i') (.intc ['0']) (c65n 'c') (c65n 'i') (c65n 'd')
      (.gblock none [.assign (c65n 'x') (c65n 'y')]), .assign (c65n 'a') (c65n 'b')]]]) ms :=
  not_parsed (ts := c70t [.kw "generate".toList, .kw "for".toList, .p .lparen, .id ['i'], .p .equals, .int ['0'], .p .semicolon, .id ['c'],
    .p .semicolon, .id ['i'], .p .equals, .id ['d'], .p .rparen, .kw "begin".toList, .kw "assign".toList, .id ['x'], .p .equals, .id ['y'],
    .p .semicolon, .id "endassign".toList, .id ['a'], .p .equals, .id ['b'], .p .semicolon, .kw "endgenerate".toList]) 100
    (by decide +kernel) rfl rfl

/-- **C70** fails for tasks with outputs: the parser accepts inputs, registers and integers only. -/
theorem C70_fails_task_output :
    ¬ ∃ ms, SourceParsesTo (sourceCode [c70m [.task ['t'] [[.var ⟨.output, ['x'], none, false, none⟩]] (.ba (c65n 'x') (c65n 'y'))]]) ms :=
  not_parsed (ts := c70t [.kw "task".toList, .id ['t'], .p .semicolon, .kw "output".toList, .id ['x'], .p .semicolon,
    .id ['x'], .p .equals, .id ['y'], .p .semicolon, .kw "endtask".toList]) 100
    (by decide +kernel) rfl rfl

/-- `module m #(parameter N = 3) (input c, input d, output reg [3:0] q); wire [3:0] a; reg signed [3:0] b [3:0];
wire e; assign e = a[3]; always @(posedge c or negedge d) if (e) q <= a; s #(.N(N)) u (.x(a), .y()), v (.x(q)); endmodule` -/
def c70x : ModuleDef :=
  ⟨['m'], [[⟨['N'], .intc ['3'], none, false⟩]],
    [.io ⟨.input, ['c'], none, false, none⟩ none, .io ⟨.input, ['d'], none, false, none⟩ none,
     .io ⟨.output, ['q'], some (.intc ['3'], .intc ['0']), false, none⟩ (some ⟨.reg, ['q'], some (.intc ['3'], .intc ['0']), false, none⟩)],
    [.decl [.var ⟨.wire, ['a'], some (.intc ['3'], .intc ['0']), false, none⟩,
        .var ⟨.reg, ['b'], some (.intc ['3'], .intc ['0']), true, some [(.intc ['3'], .intc ['0'])]⟩],
     .decl [.var ⟨.wire, ['e'], none, false, none⟩, .assign (c65n 'e') (.ptr (c65n 'a') (.intc ['3']))],
     .always .always [.posedge (c65n 'c'), .negedge (c65n 'd')] (.ifs (c65n 'e') (.nb (c65n 'q') (c65n 'a')) .skip),
     .insts ['s'] [⟨some ['N'], some (c65n 'N')⟩]
       [⟨['u'], none, [⟨some ['x'], some (c65n 'a')⟩, ⟨some ['y'], none⟩]⟩, ⟨['v'], none, [⟨some ['x'], some (c65n 'q')⟩]⟩]]⟩

theorem c70_name (c : Char) (h : c ∈ "abcdemqsuvxyN".toList) : NameOK [c] := by
  refine ⟨plain1 c ?_ ?_, fun d hd => ?_⟩
  · revert c; decide +kernel
  · revert c; decide +kernel
  · rw [List.mem_singleton.mp hd]; clear hd; revert c; decide +kernel

theorem c70_ident (c : Char) (h : c ∈ "abcdemqsuvxyN".toList) : (c65n c).Printable := by
  have := c70_name c h
  refine ⟨?_, ?_⟩
  · simp only [c65n, Ex.WF, List.mem_singleton, forall_eq]; exact this.1
  · simp only [c65n, Ex.Leaves, List.mem_singleton, forall_eq]; exact this.2

theorem c70_int (c : Char) (h : c ∈ "03".toList) : (Ex.intc [c]).Printable := by
  refine ⟨?_, ?_⟩
  · simp only [Ex.WF]; exact .dec c [] (by revert c; decide) (by simp)
  · simp only [Ex.Leaves]; intro d hd; rw [List.mem_singleton.mp hd]; clear hd; revert c; decide +kernel

theorem c70_rng : RngOK (.intc ['3'], .intc ['0']) :=
  ⟨⟨c70_int _ (by decide), by simp only [Ex.Tight]⟩, c70_int _ (by decide), by simp only [Ex.Tight]⟩

theorem c70_var (k : SigKind) (c : Char) (sg : Bool) (h : c ∈ "abcdemqsuvxyN".toList) :
    (Var.mk k [c] (some (.intc ['3'], .intc ['0'])) sg none).OK ∧ (Var.mk k [c] none sg none).OK ∧
    (Var.mk k [c] (some (.intc ['3'], .intc ['0'])) sg (some [(.intc ['3'], .intc ['0'])])).OK := by
  refine ⟨⟨c70_name c h, ?_, by simp⟩, ⟨c70_name c h, by simp, by simp⟩, c70_name c h, ?_, ?_⟩
  · intro r hr; simp only [Option.some.injEq] at hr; subst hr; exact c70_rng
  · intro r hr; simp only [Option.some.injEq] at hr; subst hr; exact c70_rng
  · intro ls hl; simp only [Option.some.injEq] at hl; subst hl
    refine ⟨by simp, fun r hr => ?_⟩
    rw [List.mem_singleton.mp hr]; exact c70_rng

theorem c70_ok : c70x.OK := by
  have hi := c70_ident
  refine ⟨c70_name _ (by decide), ?_, .inr ?_, ?_⟩
  · simp only [c70x, List.mem_singleton, forall_eq]
    refine ⟨_, rfl, ⟨c70_name _ (by decide), c70_int _ (by decide), by simp⟩, by decide, ?_, by simp⟩
    simp only [Ex.Leaves]; decide
  · simp only [c70x, List.mem_cons, List.not_mem_nil, or_false, forall_eq_or_imp, forall_eq]
    refine ⟨⟨_, _, rfl, (c70_var _ _ _ (by decide)).2.1, by simp, by simp, .inl rfl⟩,
      ⟨_, _, rfl, (c70_var _ _ _ (by decide)).2.1, by simp, by simp, .inl rfl⟩,
      ⟨_, _, rfl, (c70_var _ _ _ (by decide)).1, by simp, ?_, .inr (.inr rfl)⟩⟩
    intro v hv; simp only [Option.some.injEq] at hv; subst hv; rfl
  · simp only [c70x, List.mem_cons, List.not_mem_nil, or_false, forall_eq_or_imp, forall_eq]
    refine ⟨?_, ?_, ?_, ?_⟩
    · show ∀ d ∈ _, DItem.OK d
      simp only [List.mem_cons, List.not_mem_nil, or_false, forall_eq_or_imp, forall_eq]
      exact ⟨(c70_var _ _ _ (by decide)).1, (c70_var _ _ _ (by decide)).2.2⟩
    · show ∀ d ∈ _, DItem.OK d
      simp only [List.mem_cons, List.not_mem_nil, or_false, forall_eq_or_imp, forall_eq]
      refine ⟨(c70_var _ _ _ (by decide)).2.1, hi _ (by decide), .base _ rfl, ?_, ?_⟩
      · simp only [Ex.WF]; exact ⟨rfl, (hi _ (by decide)).1, (c70_int _ (by decide)).1⟩
      · simp only [Ex.Leaves]; exact ⟨(hi _ (by decide)).2, (c70_int _ (by decide)).2⟩
    · refine ⟨rfl, .inr (.inl ⟨by simp, ?_⟩), ?_⟩
      · simp only [List.mem_cons, List.not_mem_nil, or_false, forall_eq_or_imp, forall_eq, SensItem.EdgeOK]
        exact ⟨⟨hi _ (by decide), rfl⟩, hi _ (by decide), rfl⟩
      · simp only [Stmt.WF]
        exact ⟨⟨hi _ (by decide), ⟨hi _ (by decide), .base _ rfl, hi _ (by decide)⟩, .inl ⟨by first | trivial | rfl, rfl⟩⟩, rfl⟩
    · refine ⟨c70_name _ (by decide), ⟨?_, .inl ?_⟩, by simp, .inl ?_⟩
      · simp only [List.mem_singleton, forall_eq, Option.some.injEq, forall_eq']
        exact hi _ (by decide)
      · simp only [List.mem_singleton, forall_eq]
        exact ⟨⟨_, rfl, c70_name _ (by decide)⟩, by simp⟩
      · simp only [List.mem_cons, List.not_mem_nil, or_false, forall_eq_or_imp, forall_eq]
        refine ⟨⟨c70_name _ (by decide), by simp, ?_, .inl ?_⟩, c70_name _ (by decide), by simp, ?_, .inl ?_⟩
        · simp only [List.mem_cons, List.not_mem_nil, or_false, forall_eq_or_imp, forall_eq, Option.some.injEq, forall_eq']
          exact ⟨hi _ (by decide), by simp⟩
        · simp only [List.mem_cons, List.not_mem_nil, or_false, forall_eq_or_imp, forall_eq]
          exact ⟨⟨⟨_, rfl, c70_name _ (by decide)⟩, by simp⟩, ⟨_, rfl, c70_name _ (by decide)⟩, by simp⟩
        · simp only [List.mem_singleton, forall_eq, Option.some.injEq, forall_eq']
          exact hi _ (by decide)
        · simp only [List.mem_singleton, forall_eq]
          exact ⟨⟨_, rfl, c70_name _ (by decide)⟩, by simp⟩

example : c70x.OK ∧ c70x.noUplus = true ∧ c70x.split.items.length = 6 ∧ SourceParsesTo (sourceCode [c70x]) [c70x.split] :=
  ⟨c70_ok, by decide +kernel, rfl, C70_split_partial [c70x] (by simp) (by simpa using c70_ok) (by simp only [List.mem_singleton, forall_eq]; decide +kernel)⟩

/-- `function [3:0] f; input [3:0] a; reg b; f = a; endfunction  task t; input a; if(a) b = a; endtask
generate for(i = 0; c; i = d) begin : x  wire [3:0] a, b; if(e) u v (.x(a)); else assign q = a; end endgenerate` -/
def c70g : List MItem :=
  [.func ['f'] (.intc ['3'], .intc ['0']) [[.var ⟨.input, ['a'], some (.intc ['3'], .intc ['0']), false, none⟩, .var ⟨.input, ['c'], none, false, none⟩],
      [.var ⟨.reg, ['b'], none, false, none⟩]]
      (.ba (c65n 'd') (c65n 'a')),
   .task ['t'] [[.var ⟨.input, ['a'], none, false, none⟩]] (.ifs (c65n 'a') (.ba (c65n 'b') (c65n 'a')) .skip),
   .gen [.gfor (c65n 'd') (.intc ['0']) (c65n 'c') (c65n 'd') (c65n 'a')
     (.gblock (some ['x']) [.decl [.var ⟨.wire, ['a'], some (.intc ['3'], .intc ['0']), false, none⟩, .var ⟨.wire, ['b'], none, false, none⟩],
       .gife (c65n 'e') (.insts ['u'] [] [⟨['v'], none, [⟨some ['x'], some (c65n 'a')⟩]⟩]) (.assign (c65n 'q') (c65n 'a'))])]]

theorem c70g_ok : (c70m c70g).OK := by
  have hi := c70_ident
  have hf : NameOK ['f'] ∧ NameOK ['t'] := by
    constructor <;>
      exact ⟨plain1 _ (by decide +kernel) (by decide +kernel), fun d hd => by rw [List.mem_singleton.mp hd]; decide +kernel⟩
  have hv := @c70_var
  refine ⟨c70_name _ (by decide), by simp [c70m], .inl (by simp [c70m]), ?_⟩
  simp only [c70m, c70g, List.mem_cons, List.not_mem_nil, or_false, forall_eq_or_imp, forall_eq]
  refine ⟨?_, ?_, ?_⟩
  · refine ⟨hf.1, c70_rng, by simp, ?_, ?_, trivial⟩
    · simp only [List.flatten_cons, List.flatten_nil, List.cons_append, List.nil_append, List.mem_cons, List.not_mem_nil, or_false,
        forall_eq_or_imp, forall_eq]
      exact ⟨⟨(hv _ _ _ (by decide)).1, .inl rfl⟩, ⟨(hv _ _ _ (by decide)).2.1, .inl rfl⟩, (hv _ _ _ (by decide)).2.1, .inr rfl⟩
    · simp only [Stmt.WF]
      exact ⟨hi _ (by decide), .base _ rfl, hi _ (by decide)⟩
  · refine ⟨hf.2, ?_, ?_, trivial⟩
    · simp only [List.flatten_cons, List.flatten_nil, List.cons_append, List.nil_append, List.mem_cons, List.not_mem_nil, or_false,
        forall_eq_or_imp, forall_eq]
      exact ⟨(hv _ _ _ (by decide)).2.1, .inl rfl⟩
    · simp only [Stmt.WF]
      exact ⟨hi _ (by decide), ⟨hi _ (by decide), .base _ rfl, hi _ (by decide)⟩, .inl (by first | trivial | rfl)⟩
  · refine ⟨trivial, ⟨⟨.base _ rfl, .base _ rfl, ?_, ?_, ?_⟩, rfl, ?_, ?_⟩, trivial⟩
    · rintro e (rfl | rfl | rfl | rfl | rfl) <;>
        first
        | exact ⟨hi _ (by decide), by simp only [c65n, Ex.Tight, List.mem_singleton, forall_eq]; decide⟩
        | exact ⟨c70_int _ (by decide), by simp only [Ex.Tight]⟩
    · simp only [c65n, Ex.Leaves, List.mem_singleton, forall_eq]; decide
    · simp only [c65n, Ex.Leaves, List.mem_singleton, forall_eq]; decide
    · intro n hn; simp only [Option.some.injEq] at hn; subst hn; exact c70_name _ (by decide)
    · refine ⟨⟨?_, fun h => by simp at h⟩, ⟨hi _ (by decide), ⟨?_, fun _ => rfl⟩, ⟨⟨hi _ (by decide), .base _ rfl, hi _ (by decide)⟩, fun _ => rfl⟩, rfl⟩, trivial⟩
      · show ∀ d ∈ _, DItem.OK d
        simp only [List.mem_cons, List.not_mem_nil, or_false, forall_eq_or_imp, forall_eq]
        exact ⟨(hv _ _ _ (by decide)).1, (hv _ _ _ (by decide)).2.1⟩
      · refine ⟨c70_name _ (by decide), ⟨by simp, .inl (by simp)⟩, by simp, .inl ?_⟩
        simp only [List.mem_singleton, forall_eq]
        refine ⟨c70_name _ (by decide), by simp, ?_, .inl ?_⟩
        · simp only [List.mem_singleton, forall_eq, Option.some.injEq, forall_eq']
          exact hi _ (by decide)
        · simp only [List.mem_singleton, forall_eq]
          exact ⟨⟨_, rfl, c70_name _ (by decide)⟩, by simp⟩

example : (c70m c70g).OK ∧ (c70m c70g).noUplus = true ∧
    (c70m c70g).split.items.map (fun i => match i with | .func _ _ ds _ => ds.length | .gen [.gfor _ _ _ _ _ (.gblock _ is)] => is.length | _ => 0) = [3, 0, 3] ∧
    SourceParsesTo (sourceCode [c70m c70g]) [(c70m c70g).split] :=
  ⟨c70g_ok, by decide +kernel, rfl, C70_split_partial [c70m c70g] (by simp) (by simpa using c70g_ok)
    (by simp only [List.mem_singleton, forall_eq]; decide +kernel)⟩

/-! ## C71 -/

theorem inherit_like {f : Var} {s : Option Var} (h : IoOK f s) (hi : (PortD.io f s).Inheritable) (n : Str) (r : List PortD) :
    inheritIo n (PortD.erase (.io f s) :: r) = some ((PortD.io f s).like n).erase := by
  obtain ⟨_, _, h3, h4⟩ := h
  obtain ⟨h5, h6, h7⟩ := hi
  obtain ⟨k, n0, w, sg, d⟩ := f
  simp only at h5 h6
  subst h5 h6
  rcases h7 with rfl | ⟨v, rfl, hv⟩
  · cases k <;> first | exact h4.elim | rfl
  · have e := h3 v rfl
    obtain ⟨k2, n2, w2, sg2, d2⟩ := v
    simp only at hv
    subst hv
    simp only [Var.mk.injEq, true_and] at e
    obtain ⟨rfl, rfl, rfl, rfl⟩ := e
    cases k <;> first | exact h4.elim | (simp [IoKinds] at h4; done) | rfl

theorem like_IoOK {f : Var} {s : Option Var} (h : IoOK f s) {n : Str} (hn : NameOK n) : ∃ f' s', (PortD.io f s).like n = .io f' s' ∧ IoOK f' s' := by
  refine ⟨_, _, rfl, ⟨hn, h.1.2⟩, h.2.1, ?_, ?_⟩
  · intro v hv
    cases s with
    | none => simp at hv
    | some w =>
      simp only [Option.map_some, Option.some.injEq] at hv
      subst hv
      have := h.2.2.1 w rfl
      rw [this]
  · have := h.2.2.2
    cases s <;> exact this

/-- The ports after the first one. -/
theorem abbrev_read {p : Option PortD} {ps qs : List PortD} (h : Abbrev PortD.Inheritable p ps qs) (hne : ps ≠ []) (n : Str) (q : Option (List (List Param)))
    (m : List MSym) (ts : List Tok) : ∀ done : List PortD, (∀ x, p = some x → (∃ f s, x = .io f s ∧ IoOK f s) ∧ ∃ d, done = d ++ [x.erase]) →
    MSt (at' (.io done :: .mod n q :: m) (commaT (ps.map PortD.toks) ++ .p .rparen :: .p .semicolon :: ts))
      (bodyAt n (q.getD []) (done ++ qs.map PortD.erase) [] m ts) := by
  induction h with
  | nil => exact absurd rfl hne
  | full p f s ps qs hx hr ih =>
    intro done hd
    cases ps with
    | nil =>
      cases hr
      simp only [List.map_cons, List.map_nil, commaT]
      obtain ⟨ws, h1, h2⟩ := io_read hx done (.mod n q :: m) (.p .rparen :: .p .semicolon :: ts)
      refine h2.trans (.one ?_)
      simp only [mnext, mstep, stepIoN, h1, Option.bind_some]
      rfl
    | cons y ys =>
      simp only [List.map_cons, commaT, List.append_assoc, List.cons_append]
      obtain ⟨ws, h1, h2⟩ := io_read hx done (.mod n q :: m) (.p .comma :: (commaT (y.toks :: ys.map PortD.toks) ++ .p .rparen :: .p .semicolon :: ts))
      refine h2.trans (.head (y := at' (.io (done ++ [PortD.erase (.io f s)]) :: .mod n q :: m) (commaT (y.toks :: ys.map PortD.toks) ++ .p .rparen :: .p .semicolon :: ts)) ?_ ?_)
      · simp only [mnext, mstep, stepIoN, h1, Option.bind_some]
        rfl
      · have := ih (by simp) (done ++ [PortD.erase (.io f s)]) (by
          intro x hx'
          simp only [Option.some.injEq] at hx'
          subst hx'
          exact ⟨⟨f, s, rfl, hx⟩, done, rfl⟩)
        simpa using this
  | short p x ps qs hx hok hr ih =>
    intro done hd
    obtain ⟨⟨f, s, rfl, hio⟩, d, rfl⟩ := hd p rfl
    have hinh : inheritIo x (d ++ [PortD.erase (.io f s)]).reverse = some ((PortD.io f s).like x).erase := by
      rw [List.reverse_append, List.reverse_singleton]
      exact inherit_like hio hok x _
    cases ps with
    | nil =>
      cases hr
      simp only [List.map_cons, List.map_nil, commaT, PortD.toks]
      refine .one ?_
      simp only [mnext, mstep, List.cons_append, List.nil_append, stepIo, hinh]
      simp only [Option.bind_some]
      rw [if_neg (by simp)]
      rfl
    | cons y ys =>
      simp only [List.map_cons, commaT, List.append_assoc, List.cons_append, PortD.toks]
      refine .head (y := at' (.io (d ++ [PortD.erase (.io f s)] ++ [((PortD.io f s).like x).erase]) :: .mod n q :: m) (commaT (y.toks :: ys.map PortD.toks) ++ .p .rparen :: .p .semicolon :: ts)) ?_ ?_
      · simp only [mnext, mstep, List.cons_append, List.nil_append, stepIo, hinh]
        simp only [Option.bind_some]
        rw [if_neg (by simp)]
        rfl
      · have := ih (by simp) (d ++ [PortD.erase (.io f s)] ++ [((PortD.io f s).like x).erase]) (by
          intro z hz
          simp only [Option.some.injEq] at hz
          subst hz
          exact ⟨like_IoOK hio hx, _, rfl⟩)
        simpa using this

theorem abbrev_texts {ok : PortD → Prop} {p : Option PortD} {ps qs : List PortD} (h : Abbrev ok p ps qs) :
    ∀ x ∈ ps, (∃ n, x = .port n ∧ NameOK n) ∨ (∃ f s, x = .io f s ∧ IoOK f s) := by
  induction h with
  | nil => simp
  | full p f s ps qs hx hr ih =>
    intro x hx'
    rcases List.mem_cons.mp hx' with rfl | hx'
    · exact .inr ⟨f, s, rfl, hx⟩
    · exact ih x hx'
  | short p n ps qs hx hok hr ih =>
    intro x hx'
    rcases List.mem_cons.mp hx' with rfl | hx'
    · exact .inl ⟨n, rfl, hx⟩
    · exact ih x hx'

/-- **C71** (part): in a list of ports a name without a type stands for a port like the one in front of it: a module whose
header is abbreviated (`short`) is parsed to the module with all types written out (`full`).  Missing: ports in front of
the name that are signed (`C71_fails_signed`), have dimensions, or are also declared as a wire (`C71_fails_wire`,
`C71_fails_direction`). -/
theorem C71_abbrev_partial (m : ModuleDef) (short full : List PortD) (hp : m.ports = full) (hok : m.OK)
    (h : Abbrev PortD.Inheritable none short full) (ms' : List ModuleDef) :
    SourceParsesTo (sourceCode [{ m with ports := short }]) ms' ↔ ms' = [m.norm] := by
  suffices hm : SourceParsesTo (sourceCode [{ m with ports := short }]) [m.norm] from
    ⟨fun h' => h'.unique hm, fun e => e ▸ hm⟩
  obtain ⟨n, ps, ports, its⟩ := m
  simp only at hp
  subst hp
  obtain ⟨h1, h2, h3, h4⟩ := hok
  refine ⟨_, source_lex _ (by
    intro m hm
    rw [List.mem_singleton.mp hm]
    exact ⟨h1, h2, abbrev_texts h, h4⟩), ?_⟩
  have hread : ∀ q m ts, MSt (at' (.mod n q :: m) (.p .lparen :: (commaT (short.map PortD.toks) ++ .p .rparen :: .p .semicolon :: ts)))
      (bodyAt n (q.getD []) (ports.map PortD.erase) [] m ts) := by
    intro q m ts
    by_cases hne : short = []
    · subst hne
      cases h
      exact .one rfl
    · have := abbrev_read h hne n q m ts [] (by simp)
      simp only [List.nil_append] at this
      refine .head (y := at' (.io [] :: .mod n q :: m) (commaT (short.map PortD.toks) ++ .p .rparen :: .p .semicolon :: ts)) ?_ this
      cases h with
      | nil => exact absurd rfl hne
      | full _ _ _ xs _ hx hr =>
        cases xs with
        | nil => rfl
        | cons => rfl
  have := module_read' h2 hread h4 [] []
  rw [List.append_nil, List.nil_append] at this
  rw [List.flatMap_cons, List.flatMap_nil, List.append_nil]
  exact MSt.parse this (by simp)

/-- The range `[3:0]`. -/
def c71r : WRange := (.intc ['3'], .intc ['0'])

/-- The tokens of a module `m` with these ports. -/
def c71t (ts : List Tok) : List Tok :=
  [.kw "module".toList, .id ['m'], .p .lparen] ++ ts ++ [.p .rparen, .p .semicolon, .kw "endmodule".toList]

/-- **C71** fails for `input signed [3:0] a, b`: `b` is not signed. -/
theorem C71_fails_signed :
    SourceParsesTo "module m(input signed [3:0] a, b); endmodule".toList
      [⟨['m'], [], [.io ⟨.input, ['a'], some c71r, true, none⟩ none, .io ⟨.input, ['b'], some c71r, false, none⟩ none], []⟩] :=
  ⟨c71t [.kw "input".toList, .kw "signed".toList, .p .lbracket, .int ['3'], .p .colon, .int ['0'], .p .rbracket, .id ['a'], .p .comma, .id ['b']],
    by decide +kernel, 40, rfl⟩

/-- **C71** fails for `output wire a, b`: `b` is None. -/
theorem C71_fails_wire :
    SourceParsesTo "module m(output wire a, b); endmodule".toList
      [⟨['m'], [], [.io ⟨.output, ['a'], none, false, none⟩ (some ⟨.wire, ['a'], none, false, none⟩), .none_], []⟩] :=
  ⟨c71t [.kw "output".toList, .kw "wire".toList, .id ['a'], .p .comma, .id ['b']], by decide +kernel, 40, rfl⟩

/-- **C71** fails for `input x, output wire a, b`: `b`, an output, becomes an input like `x`. -/
theorem C71_fails_direction :
    SourceParsesTo "module m(input x, output wire a, b); endmodule".toList
      [⟨['m'], [], [.io ⟨.input, ['x'], none, false, none⟩ none,
        .io ⟨.output, ['a'], none, false, none⟩ (some ⟨.wire, ['a'], none, false, none⟩),
        .io ⟨.input, ['b'], none, false, none⟩ none], []⟩] :=
  ⟨c71t [.kw "input".toList, .id ['x'], .p .comma, .kw "output".toList, .kw "wire".toList, .id ['a'], .p .comma, .id ['b']],
    by decide +kernel, 40, rfl⟩

/-- The ports `input c, d, output reg [3:0] q` of `c70x`: the header is abbreviated. -/
example : Abbrev PortD.Inheritable none
    [.io ⟨.input, ['c'], none, false, none⟩ none, .port ['d'],
     .io ⟨.output, ['q'], some (.intc ['3'], .intc ['0']), false, none⟩ (some ⟨.reg, ['q'], some (.intc ['3'], .intc ['0']), false, none⟩)]
    c70x.ports := by
  have h := c70_ok.2.2.1
  rcases h with h | h
  · obtain ⟨n, hn, _⟩ := h _ (List.mem_cons_self ..); simp at hn
  · refine .full _ _ _ _ _ ?_ (.short _ _ _ _ (c70_name _ (by decide)) ⟨rfl, rfl, .inl rfl⟩ (.full _ _ _ _ _ ?_ (.nil _)))
    · obtain ⟨f, s, e, h⟩ := h (.io ⟨.input, ['c'], none, false, none⟩ none) (by simp [c70x])
      cases e; exact h
    · obtain ⟨f, s, e, h⟩ := h (.io ⟨.output, ['q'], some (.intc ['3'], .intc ['0']), false, none⟩ (some ⟨.reg, ['q'], some (.intc ['3'], .intc ['0']), false, none⟩)) (by simp [c70x])
      cases e; exact h

end Pyv
