import Verif.Props.CallProps
/-
  C91: function calls in the continuous assignments of a module.
-/
namespace Pyv

section
variable {s s' σ : BV} {mod : ScopeChain} {τ : Env} {FT : FuncTable}

theorem addBindObj_first {b : Bind} (h : s.getBindlist b.dest = []) (hO : s.Objs) :
    ((s.alloc b).addBindObj b.dest s.objs.length b).getBindlist b.dest = [b] := by
  have hl : ∀ i ∈ (s.binds.get? b.dest).getD [], False := by
    intro i hi
    cases hg : s.binds.get? b.dest with
    | none => rw [hg] at hi; simp at hi
    | some ids =>
      rw [hg] at hi
      obtain ⟨b0, h1, _⟩ := hO _ _ hg i hi
      have : b0 ∈ s.getBindlist b.dest := mem_getBindlist.mpr ⟨ids, i, hg, hi, h1⟩
      rw [h] at this; simp at this
  unfold BV.addBindObj
  cases hg : (s.alloc b).binds.get? b.dest with
  | none =>
    simp only
    simp [BV.getBindlist, BV.deref, Dict.get?_set, BV.alloc]
  | some ids =>
    have hg' : s.binds.get? b.dest = some ids := hg
    have : ids = [] := by
      cases ids with
      | nil => rfl
      | cons i is => exact (hl i (by rw [hg']; simp)).elim
    subst this
    simp [BV.getBindlist, BV.deref, Dict.get?_set, BV.alloc, BV.findObj]

/-- One assignment of the module. -/
theorem assignC_fn (hFT : ∀ n f, FT.get? (mod ++ [⟨n, .function, none⟩]) = some f → f.covered = true) (ha : ∀ n, τ.arr n = none)
    (hI : FnInv mod s) (hcur : s.current = mod) {y : Str} (hy : s.terms.has (mod ++ [⟨y, .signal, none⟩]) = true) {e : Ex} (hfl : e.flat = true)
    (hno : s.getBindlist (mod ++ [⟨y, .signal, none⟩]) = []) (h : s.visitAssignC FT (.ident [] y) e = .ok s') :
    ∃ s1 b, Conv mod s s1 ∧ Wrote mod mod s1 s' (mod ++ [⟨y, .signal, none⟩]) b.tree ∧ s'.getBindlist (mod ++ [⟨y, .signal, none⟩]) = [b] ∧ b.whole ∧
      (s.Solves s1 τ → ∀ v, fxVal (s.valsAt mod τ) (FT.callVal mod (s.valsAt mod τ)) e = some v → sem τ b.tree = some v) := by
  simp only [BV.visitAssignC, bind_ok] at h
  obtain ⟨⟨dst, s0⟩, hd, p, hp, ⟨t, s1⟩, ht, raw, hraw, h⟩ := h
  have hs := hI.quiet.search y
  rw [resOf, if_pos hy] at hs
  rw [hcur] at hd
  simp only [BV.getDestinations, BV.getDsts, BV.getDst, hs, ok_bind, if_true, ok_inj, Prod.mk.injEq] at hd
  obtain ⟨rfl, rfl⟩ := hd
  rw [hcur] at hp ht hraw
  have := hI.quiet.path p hp
  subst this
  obtain ⟨hconv, hval⟩ := callClaim hFT ha e s t s1 hI hfl ht
  simp only [BV.setDataflow, List.foldlM_cons, List.foldlM_nil, bind_ok, py_pure, ok_inj, BV.setDataflow1, BV.makeBind, bindTree, diffBranchTree, addTree,
    appendBranchTree, makeBranchTree, ne_eq, not_true_eq_false, false_and, if_false, ok_bind, gt_iff_lt, lt_self_iff_false, List.length_cons, List.length_nil, Nat.zero_add] at h
  obtain ⟨s2', ⟨b, ⟨tr, htr, rfl⟩, rfl⟩, rfl⟩ := h
  have hy1 := hconv.step.hasT hy
  have hW := record_fn (C := mod) hconv.inv (b := ⟨tr, mod ++ [⟨y, .signal, none⟩], .none, .none, .none, "assign".toList, none⟩) ⟨rfl, rfl, rfl⟩ hy1 rfl
  have hno1 : s1.getBindlist (mod ++ [⟨y, .signal, none⟩]) = [] := by
    rcases hconv.step.binds _ hy with h | ⟨_, _, _, h⟩
    · rw [h, hno]
    · exact h.elim
  refine ⟨s1, _, hconv, hW, addBindObj_first (b := ⟨tr, mod ++ [⟨y, .signal, none⟩], .none, .none, .none, "assign".toList, none⟩) hno1 hconv.inv.objs, ⟨rfl, rfl, rfl⟩, ?_⟩
  intro hsol v hv
  exact C14_reorder_value τ (hconv.inv.quiet.arrays ha).1 _ _ _ htr _ (hconv.inv.quiet.finish ha hraw (hval hsol v hv))

/-- The assignments. -/
theorem assignsC_fn (hFT : ∀ n f, FT.get? (mod ++ [⟨n, .function, none⟩]) = some f → f.covered = true) (ha : ∀ n, τ.arr n = none) :
    ∀ (as : List (Ex × Ex)) (s s' : BV), FnInv mod s → s.current = mod → (∀ n, σ.terms.has n = true → s.terms.has n = true) →
    (∀ a ∈ as, a.2.flat = true ∧ ∃ y, targetOf a.1 = some y ∧ σ.terms.has (mod ++ [⟨y, .signal, none⟩]) = true ∧ s.getBindlist (mod ++ [⟨y, .signal, none⟩]) = []) →
    (as.filterMap (fun a => targetOf a.1)).Nodup → as.foldlM (fun st a => BV.visitAssignC FT st a.1 a.2) s = .ok s' →
    (∀ a ∈ as, ∀ y, targetOf a.1 = some y → ∃ b, s'.getBindlist (mod ++ [⟨y, .signal, none⟩]) = [b] ∧ b.whole ∧
      (σ.Solves s' τ → ∀ v, fxVal (s.valsAt mod τ) (FT.callVal mod (s.valsAt mod τ)) a.2 = some v → sem τ b.tree = some v)) ∧
    (∀ n, σ.terms.has n = true → (∀ a ∈ as, ∀ y, targetOf a.1 = some y → n ≠ mod ++ [⟨y, .signal, none⟩]) → s'.getBindlist n = s.getBindlist n) ∧
    (σ.Solves s' τ → σ.Solves s τ) := by
  intro as
  induction as with
  | nil =>
    intro s s' hI hcur hσ _ _ h
    simp only [List.foldlM_nil, py_pure, ok_inj] at h
    subst h
    exact ⟨by simp, fun _ _ _ => rfl, id⟩
  | cons a as ih =>
    intro s s' hI hcur hσ hh hnd h
    obtain ⟨l, e⟩ := a
    simp only [List.foldlM_cons, bind_ok] at h
    obtain ⟨s2, h1, h⟩ := h
    obtain ⟨hfl, y, hy, hyσ, hyn⟩ := hh (l, e) (by simp)
    have hl : l = .ident [] y := by
      simp only [targetOf] at hy
      split at hy
      · cases hy; rfl
      · cases hy
    subst hl
    simp only [List.filterMap_cons, hy, List.nodup_cons] at hnd
    obtain ⟨s1, b, hconv, hW, hlist, hwh, hval⟩ := assignC_fn hFT ha hI hcur (hσ _ hyσ) hfl hyn h1
    have hσ2 : ∀ n, σ.terms.has n = true → s2.terms.has n = true := by
      intro n hn
      rw [hW.terms]; exact hconv.step.hasT (hσ n hn)
    have hsame : ∀ n, σ.terms.has n = true → n ≠ mod ++ [⟨y, .signal, none⟩] → s2.getBindlist n = s.getBindlist n := by
      intro n hn hne
      rw [hW.others n hne]
      rcases hconv.step.binds _ (hσ n hn) with h | ⟨_, _, _, h⟩
      · exact h
      · exact h.elim
    have hdis : ∀ a ∈ as, ∀ z, targetOf a.1 = some z → z ≠ y := by
      rintro a ha' z hz rfl
      exact hnd.1 (List.mem_filterMap.mpr ⟨a, ha', hz⟩)
    have hsnoc : ∀ {z : Str}, z ≠ y → mod ++ [⟨z, .signal, none⟩] ≠ mod ++ [⟨y, .signal, none⟩] := by
      intro z hz e
      obtain ⟨_, e⟩ := snoc_inj e
      simp only [ScopeLabel.mk.injEq, and_true] at e
      exact hz e
    have back : σ.Solves s2 τ → σ.Solves s1 τ := by
      intro g n t hn ht b' hb'
      refine g n t hn (by rw [hW.terms]; exact ht) b' ?_
      rw [hW.others n]
      · exact hb'
      · rintro rfl; rw [hyσ] at hn; cases hn
    have hlook : s2.valsAt mod τ = s.valsAt mod τ := by
      rw [← hconv.vals hI]
      funext n
      simp only [BV.valsAt, hW.terms]
    obtain ⟨i1, i2, i3⟩ := ih s2 s' hW.inv (hW.cur.trans (hconv.cur.trans hcur)) hσ2 (fun a ha' => by
      obtain ⟨g1, z, g2, g3, g4⟩ := hh a (by simp [ha'])
      exact ⟨g1, z, g2, g3, by rw [hsame _ g3 (hsnoc (hdis a ha' z g2))]; exact g4⟩) hnd.2 h
    refine ⟨?_, ?_, fun g => solves_left hconv.step (back (i3 g))⟩
    · intro a ha' z hz
      rcases List.mem_cons.mp ha' with rfl | ha'
      · simp only at hz
        rw [hy] at hz; cases hz
        refine ⟨b, ?_, hwh, fun g v hv => hval ?_ v hv⟩
        · rw [i2 _ hyσ (fun a ha' z hz => (hsnoc (hdis a ha' z hz)).symm)]; exact hlist
        · have := back (i3 g)
          intro n t hn
          refine this n t ?_
          cases hh : σ.terms.has n with
          | false => rfl
          | true => rw [hσ n hh] at hn; cases hn
      · obtain ⟨b', k1, k2, k3⟩ := i1 a ha' z hz
        rw [hlook] at k3
        exact ⟨b', k1, k2, k3⟩
    · intro n hn hne
      rw [i2 n hn (fun a ha' => hne a (by simp [ha']))]
      exact hsame n hn (hne _ (by simp) y hy)

/-! ### The declarations of the module -/

/-- A declared signal of the module. -/
theorem visitVar_fn (hI : FnInv mod s) (hcur : s.current = mod) {v : Var} (hd : v.dims = none) (h : s.visitNode (.var v) = .ok s') :
    FnInv mod s' ∧ s'.current = mod ∧ (∀ n, s'.terms.has n = true ↔ s.terms.has n = true ∨ n = mod ++ [⟨v.name, .signal, none⟩]) ∧ s'.binds = s.binds := by
  simp only [BV.visitNode, BV.addTerm, hd, bind_ok, hcur, ok_bind, ok_inj] at h
  obtain ⟨m, -, l, -, rfl⟩ := h
  have hget := addTermC_get s (mod ++ [⟨v.name, .signal, none⟩]) ⟨mod ++ [⟨v.name, .signal, none⟩], [v.kind.termType], m, l, none⟩
  have hty : v.kind.termType ≠ .genvar := by cases v.kind <;> simp [SigKind.termType]
  generalize ((DataFlow.mk s.terms []).addTerm (mod ++ [⟨v.name, .signal, none⟩]) ⟨mod ++ [⟨v.name, .signal, none⟩], [v.kind.termType], m, l, none⟩).terms = T at *
  have hhas : ∀ n, T.has n = true ↔ s.terms.has n = true ∨ n = mod ++ [⟨v.name, .signal, none⟩] := by
    intro n
    rw [Dict.has_eq, hget]
    split
    · next e => simp [← e]
    · next e => rw [← Dict.has_eq]; simp [Ne.symm e]
  refine ⟨⟨hI.ne, hI.modf, hI.nore, hI.objs, fun n ids h => (hhas n).mpr (.inl (hI.keys n ids h)), ?_, ?_, hI.blk⟩, rfl, hhas, rfl⟩
  · intro c k hk
    rcases (hhas _).mp hk with h | h
    · exact hI.home c k h
    · obtain ⟨rfl, _⟩ := snoc_inj h; exact hI.modHas
  · intro n t ht
    simp only at ht
    rw [hget] at ht
    split at ht
    · next e =>
      split at ht
      · cases ht
        exact ⟨by simpa using Ne.symm hty, rfl⟩
      · next old ho =>
        cases ht
        obtain ⟨p1, p2⟩ := hI.plain _ _ ho
        refine ⟨?_, by simp [Term.merge, p2]⟩
        simp only [Term.merge, setUnion, List.contains_eq_mem, List.mem_append, decide_eq_false_iff_not, not_or] at p1 ⊢
        refine ⟨p1, ?_⟩
        simp only [List.mem_filter, List.mem_singleton, not_and]
        intro e; exact absurd e.symm hty
    · exact hI.plain n t ht

theorem visitVars_fn : ∀ (vs : List Var), (∀ v ∈ vs, v.dims = none) → ∀ s s', FnInv mod s → s.current = mod → (vs.map DItem.var).foldlM BV.visitNode s = .ok s' →
    FnInv mod s' ∧ s'.current = mod ∧ (∀ n, s'.terms.has n = true ↔ s.terms.has n = true ∨ ∃ v ∈ vs, n = mod ++ [⟨v.name, .signal, none⟩]) ∧ s'.binds = s.binds := by
  intro vs
  induction vs with
  | nil =>
    intro _ s s' hI hcur h
    simp only [List.map_nil, List.foldlM_nil, py_pure, ok_inj] at h
    subst h
    exact ⟨hI, hcur, by simp, rfl⟩
  | cons v vs ih =>
    intro hd s s' hI hcur h
    simp only [List.map_cons, List.foldlM_cons, bind_ok] at h
    obtain ⟨s1, h1, h⟩ := h
    obtain ⟨a1, a2, a3, a4⟩ := visitVar_fn hI hcur (hd v (by simp)) h1
    obtain ⟨b1, b2, b3, b4⟩ := ih (fun v h => hd v (by simp [h])) s1 s' a1 a2 h
    refine ⟨b1, b2, fun n => ?_, b4.trans a4⟩
    rw [b3, a3]
    simp only [List.mem_cons, exists_eq_or_imp, or_assoc]

theorem addType_get (scope : ScopeChain) (T : Dict ScopeChain Term) (d : Str × TermType) (k : ScopeChain) : (addTypeTerm scope T d).get? k =
    if scope ++ [⟨d.1, .signal, none⟩] = k then some (match T.get? (scope ++ [⟨d.1, .signal, none⟩]) with
      | none => ⟨scope ++ [⟨d.1, .signal, none⟩], [d.2], .none, .none, none⟩
      | some old => old.merge ⟨scope ++ [⟨d.1, .signal, none⟩], [d.2], .none, .none, none⟩) else T.get? k := by
  unfold addTypeTerm DataFlow.addTerm
  simp only
  cases h : T.get? (scope ++ [⟨d.1, .signal, none⟩]) <;> simp only [Dict.get?_set]

theorem addTypes_fn {scope : ScopeChain} : ∀ (ds : List (Str × TermType)), (∀ d ∈ ds, d.2 ≠ .genvar) → ∀ T : Dict ScopeChain Term,
    (∀ n t, T.get? n = some t → t.types.contains .genvar = false ∧ t.dims = none) →
    (∀ n t, (ds.foldl (addTypeTerm scope) T).get? n = some t → t.types.contains .genvar = false ∧ t.dims = none) ∧
    ∀ n, (ds.foldl (addTypeTerm scope) T).has n = true ↔ T.has n = true ∨ ∃ d ∈ ds, n = scope ++ [⟨d.1, .signal, none⟩] := by
  intro ds
  induction ds with
  | nil => intro _ T hT; exact ⟨hT, by simp⟩
  | cons d ds ih =>
    intro hd T hT
    have hty := hd d (by simp)
    have hget := addType_get scope T d
    obtain ⟨i1, i2⟩ := ih (fun d h => hd d (by simp [h])) (addTypeTerm scope T d) (by
      intro n t ht
      rw [hget] at ht
      split at ht
      · split at ht
        · cases ht
          exact ⟨by simpa using Ne.symm hty, rfl⟩
        · next old ho =>
          cases ht
          obtain ⟨p1, p2⟩ := hT _ _ ho
          refine ⟨?_, by simp [Term.merge, p2]⟩
          simp only [Term.merge, setUnion, List.contains_eq_mem, List.mem_append, decide_eq_false_iff_not, not_or] at p1 ⊢
          refine ⟨p1, ?_⟩
          simp only [List.mem_filter, List.mem_singleton, not_and]
          intro e; exact absurd e.symm hty
      · exact hT n t ht)
    refine ⟨i1, fun n => ?_⟩
    simp only [List.foldl_cons]
    rw [i2]
    have : (addTypeTerm scope T d).has n = true ↔ T.has n = true ∨ n = scope ++ [⟨d.1, .signal, none⟩] := by
      rw [Dict.has_eq, hget]
      split
      · next e => simp [← e]
      · next e => rw [← Dict.has_eq]; simp [Ne.symm e]
    rw [this]
    simp only [List.mem_cons, exists_eq_or_imp, or_assoc]

theorem funcTable_fn {scope : ScopeChain} : ∀ (fs : List Func) (T FT : FuncTable), fs.foldlM (fun T f =>
      if Dict.has T (scope ++ [⟨f.name, .function, none⟩]) then (.error .definition : Py FuncTable)
      else .ok (Dict.set T (scope ++ [⟨f.name, .function, none⟩]) f)) T = .ok FT →
    ∀ n, FT.get? (scope ++ [⟨n, .function, none⟩]) = (T.get? (scope ++ [⟨n, .function, none⟩])).or (fs.find? (fun f => f.name = n)) := by
  intro fs
  induction fs with
  | nil =>
    intro T FT h n
    simp only [List.foldlM_nil, py_pure, ok_inj] at h
    subst h
    simp
  | cons f fs ih =>
    intro T FT h n
    simp only [List.foldlM_cons, bind_ok] at h
    obtain ⟨T1, h1, h⟩ := h
    split at h1
    · cases h1
    next hno =>
    simp only [ok_inj] at h1
    subst h1
    rw [ih _ _ h n]
    simp only [Dict.get?_set, List.find?_cons]
    by_cases e : f.name = n
    · subst e
      have : T.get? (scope ++ [⟨f.name, .function, none⟩]) = none := get_none_of_has (by simpa using hno)
      simp [this]
    · have : scope ++ [⟨f.name, .function, none⟩] ≠ scope ++ [⟨n, .function, none⟩] := by
        intro h'
        obtain ⟨_, h'⟩ := snoc_inj h'
        simp only [ScopeLabel.mk.injEq, and_true] at h'
        exact e h'
      simp [this, e]

end

/-! ### C91 -/

/-- **C91** (what holds) After the analysis of a module, every continuous assignment `assign y = e` is recorded as the only tree of `y`; in every
valuation that satisfies the equations recorded for the signals added by the analysis, the tree has the value of `e`, in which a call of a
function has the value that the body of the function gives its name when the inputs hold the arguments.  Signals without assignment have no
tree.  Covered are scalars, functions whose bodies are sequences of assignments to whole variables, and in which a variable is read only after
its last assignment. -/
theorem C91_call_partial (ctx : OptCtx) (fuel loops : Nat) (m : FModule) (s : BV) (h : m.analyse ctx fuel loops = .ok s) (hcov : m.covered = true)
    (τ : Env) (ha : ∀ n, τ.arr n = none) (hτ : m.Solves s τ) :
    (∀ a ∈ m.assigns, ∃ y b, targetOf a.1 = some y ∧ s.getBindlist (m.sig y) = [b] ∧ b.whole ∧
      ∀ v, fxVal (m.look τ) (m.callVal (m.look τ)) a.2 = some v → sem τ b.tree = some v) ∧
    ∀ v ∈ m.vars, (∀ a ∈ m.assigns, targetOf a.1 ≠ some v.name) → s.getBindlist (m.sig v.name) = [] := by
  simp only [FModule.covered, Bool.and_eq_true, List.all_eq_true, decide_eq_true_eq, Option.isNone_iff_eq_none] at hcov
  obtain ⟨⟨⟨hdims, hfuncs⟩, hass⟩, hnd⟩ := hcov
  simp only [FModule.analyse, bind_ok] at h
  obtain ⟨FT, hFT, s1, h1, s3, h3, h⟩ := h
  have hFT' := funcTable_fn m.funcs [] FT hFT
  have hnil : ∀ n, Dict.get? ([] : FuncTable) n = none := fun _ => rfl
  simp only [hnil, Option.none_or] at hFT'
  have hmod : m.scope = [⟨m.name, .module, none⟩] := rfl
  -- the start
  simp only [BV.push, ok_inj] at h1
  split at h1
  · cases h1
  simp only [ok_inj] at h1
  subst h1
  simp only [List.nil_append] at h3
  have hI2 : ∀ T : Dict ScopeChain Term, (∀ n t, T.get? n = some t → t.types.contains .genvar = false ∧ t.dims = none) →
      (∀ n, T.has n = true → ∃ k, n = m.scope ++ [k]) →
      FnInv m.scope { frames := Dict.set [] m.scope { previous := [], isModule := true }, current := m.scope, terms := T, octx := ctx, fuel := fuel, loops := loops } := by
    intro T h1 h2
    have hfr : ∀ c f, (Dict.set ([] : Dict ScopeChain Frame) m.scope { previous := [], isModule := true }).get? c = some f → c = m.scope ∧ f = { previous := [], isModule := true } := by
      intro c f hc
      simp only [Dict.get?_set] at hc
      split at hc
      · next e => cases hc; exact ⟨e.symm, rfl⟩
      · cases hc
    have hget : (Dict.set ([] : Dict ScopeChain Frame) m.scope { previous := [], isModule := true }).get? m.scope = some { previous := [], isModule := true } := by
      simp [Dict.get?_set]
    refine ⟨by simp [FModule.scope], ⟨_, hget, rfl, rfl, rfl⟩, rfl, ?_, ?_, ?_, h1, ?_⟩
    · intro n ids hn; cases hn
    · intro n ids hn; cases hn
    · intro c l hcl
      obtain ⟨k, hk⟩ := h2 _ hcl
      obtain ⟨rfl, _⟩ := snoc_inj hk
      exact hasOfGet hget
    · intro c f hc n ids hn
      obtain ⟨-, rfl⟩ := hfr c f hc
      cases hn
  obtain ⟨t1, t2⟩ := addTypes_fn (scope := m.scope) (m.vars.map (fun v => (v.name, v.kind.termType)))
    (by
      intro d hd
      simp only [List.mem_map] at hd
      obtain ⟨v, _, rfl⟩ := hd
      cases v.kind <;> simp [SigKind.termType]) [] (by intro n t h; cases h)
  have hempty : ∀ n, Dict.has ([] : Dict ScopeChain Term) n = true ↔ False := by intro n; simp [Dict.has]
  simp only [hempty, false_or, List.mem_map, exists_exists_and_eq_and] at t2
  obtain ⟨i1, i2, i3, i4⟩ := visitVars_fn m.vars hdims _ _ (hI2 _ t1 (fun n hn => by
    obtain ⟨v, _, e⟩ := (t2 n).mp hn
    exact ⟨_, e⟩)) rfl h3
  simp only [t2, or_self] at i3
  have hlist3 : ∀ n, s3.getBindlist n = [] := by
    intro n
    simp only [BV.getBindlist, BV.deref, i4]
    rfl
  have hsig : ∀ n, m.sig n = m.scope ++ [⟨n, .signal, none⟩] := fun _ => rfl
  -- names and calls
  have hlook : s3.valsAt m.scope τ = m.look τ := by
    funext n
    simp only [BV.valsAt, FModule.look, resOf]
    have : s3.terms.has (m.scope ++ [⟨n, .signal, none⟩]) = true ↔ n ∈ m.vars.map (·.name) := by
      rw [i3]
      simp only [List.mem_map]
      constructor
      · rintro ⟨v, hv, e⟩
        obtain ⟨_, e⟩ := snoc_inj e
        simp only [ScopeLabel.mk.injEq, and_true] at e
        exact ⟨v, hv, e.symm⟩
      · rintro ⟨v, hv, rfl⟩
        exact ⟨v, hv, rfl⟩
    by_cases hn : n ∈ m.vars.map (·.name)
    · rw [if_pos (this.mpr hn), if_pos hn, hsig]; rfl
    · rw [if_neg (fun h => hn (this.mp h)), if_neg hn]; rfl
  have hcall : FT.callVal m.scope (m.look τ) = m.callVal (m.look τ) := by
    funext n args
    simp only [FuncTable.callVal, FModule.callVal, hFT' n]
  have hcovF : ∀ n f, FT.get? (m.scope ++ [⟨n, .function, none⟩]) = some f → f.covered = true := by
    intro n f hf
    rw [hFT' n] at hf
    exact hfuncs f (List.mem_of_find?_eq_some hf)
  have hsol : s3.Solves s τ := by
    intro n t hn ht
    refine hτ n t ?_ ht
    intro v hv e
    have := (i3 n).mpr ⟨v, hv, e⟩
    rw [hn] at this; cases this
  obtain ⟨r1, r2, -⟩ := assignsC_fn (σ := s3) hcovF ha m.assigns s3 s i1 i2 (fun _ h => h) (by
    intro a ha'
    have := hass a ha'
    obtain ⟨g1, g2⟩ := this
    split at g2
    · next y hy =>
      simp only [decide_eq_true_eq, List.mem_map] at g2
      obtain ⟨v, hv, rfl⟩ := g2
      exact ⟨g1, _, hy, (i3 _).mpr ⟨v, hv, rfl⟩, hlist3 _⟩
    · cases g2) hnd h
  refine ⟨?_, ?_⟩
  · intro a ha'
    have := (hass a ha').2
    split at this
    · next y hy =>
      obtain ⟨b, b1, b2, b3⟩ := r1 a ha' y hy
      refine ⟨y, b, hy, b1, b2, fun v hv => b3 hsol v ?_⟩
      rw [hlook, hcall]; exact hv
    · cases this
  · intro v hv hno
    rw [hsig, r2 _ ((i3 _).mpr ⟨v, hv, rfl⟩), hlist3]
    intro a ha' y hy e
    obtain ⟨_, e⟩ := snoc_inj e
    simp only [ScopeLabel.mk.injEq, and_true] at e
    subst e
    exact hno a ha' hy

end Pyv
