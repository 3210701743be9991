import Verif.Props.ElabInv
import Verif.Props.MergeSources
/-
  C75: the steps of the traversal inside a module.
-/
namespace Pyv

section
variable {D : Decls} {c : ScopeChain} {s s' : BV} {m : ModuleDef} {over : List Str}

/-! ### Declarations -/

/-- A step that only touches the terms and the constants. -/
theorem out_terms (hI : Inv D c s) (h1 : s'.frames = s.frames) (h2 : s'.current = s.current) (h3 : s'.binds = s.binds)
    (h4 : s'.objs = s.objs) (h5 : s'.noreorder = s.noreorder) (h6 : TermsOK D s'.terms) : Out D c s s' [] := by
  have hb : ∀ x, s'.getBindlist x = s.getBindlist x := fun x => by simp [BV.getBindlist, BV.deref, h3, h4]
  refine ⟨⟨h2.trans hI.cur, hI.ne, ?_, h5.trans hI.nore, ?_, h6, ?_⟩, fun _ _ => by rw [h1], fun x _ => .of_eq h3 h4, by simp⟩
  · intro c' hc hne
    unfold isModFrame
    rw [h1]
    exact hI.frames c' hc hne
  · unfold BV.Objs
    rw [h3, h4]
    exact hI.objs
  · intro x
    rw [h3, hb]
    exact hI.single x

theorem decl_of {n : Str} {ty : TermType} {tys : List (Str × TermType)} (hm : (c, tys) ∈ D) (h : (n, ty) ∈ tys) : DeclIn D (sigAt c n) ty :=
  ⟨c, _, n, hm, h, rfl⟩

theorem terms_add {ts : Dict ScopeChain Term} (h : TermsOK D ts) {k : ScopeChain} {ty : TermType} (hd : DeclIn D k ty) {t : Term}
    (h1 : t.types = [ty]) (h2 : t.dims = none) (bs : Dict ScopeChain (List Bind)) :
    TermsOK D ((DataFlow.mk ts bs).addTerm k t).terms := by
  obtain ⟨old, ho, hty⟩ := h.complete k ty hd
  obtain ⟨o1, o2, o3, o4⟩ := h.sound k old ho
  simp only [DataFlow.addTerm, ho]
  have hmem : ∀ a, a ∈ (old.merge t).types ↔ a ∈ old.types := by
    intro a
    simp only [Term.merge, mem_setUnion, h1, List.mem_singleton]
    constructor
    · rintro (h | rfl)
      · exact h
      · exact hty
    · exact .inl
  constructor
  · intro k' t' hk'
    rw [Dict.get?_set] at hk'
    split at hk'
    · rename_i e
      subst e
      cases hk'
      refine ⟨?_, nodup_setUnion o2 (by rw [h1]; simp), fun a ha => o3 a ((hmem a).mp ha), o4⟩
      simp [Term.merge, o1, h2]
    · exact h.sound k' t' hk'
  · intro k' ty' hd'
    rw [Dict.get?_set]
    by_cases e : k = k'
    · subst e
      obtain ⟨t', ht', hm'⟩ := h.complete _ ty' hd'
      rw [ho] at ht'
      cases ht'
      exact ⟨_, if_pos rfl, (hmem _).mpr hm'⟩
    · rw [if_neg e]
      exact h.complete k' ty' hd'

theorem addTerm_out (hI : Inv D c s) (hm : (c, m.termTypes) ∈ D) {ty : TermType} {n : Str} {w : Option WRange}
    (hn : (n, ty) ∈ m.termTypes) (h : s.addTerm ty n w none = .ok s') : Out D c s s' [] := by
  simp only [BV.addTerm, bind_ok, ok_inj] at h
  obtain ⟨a, _, b, _, d, rfl, rfl⟩ := h
  refine out_terms hI rfl rfl rfl rfl rfl ?_
  rw [hI.cur]
  exact terms_add hI.terms (decl_of hm hn) rfl rfl _

theorem setConst_out (hI : Inv D c s) (n : ScopeChain) (v : DF) : Out D c s (s.setConst n v) [] :=
  out_terms hI rfl rfl rfl rfl rfl hI.terms

theorem constValue_out (hI : Inv D c s) {n : Str} {v : Ex} (h : s.constValue n v = .ok s') : Out D c s s' [] := by
  unfold BV.constValue at h
  simp only at h
  split at h
  · cases h; exact Does.id (over := []) s _ hI (by simp) (by simp) rfl
  · simp only [bind_ok, ok_inj] at h
    obtain ⟨t, _, x, _, rfl⟩ := h
    exact setConst_out hI _ _

/-- Composition of outcomes without equations in the first. -/
theorem Out.after {s1 : BV} {qs : List Eqn} (h : Out D c s s1 []) (g : Out D c s1 s' qs) : Out D c s s' qs :=
  ⟨g.inv, fun c' hc => (g.frames c' hc).trans (h.frames c' hc), fun x hx => (h.keep x (by simp)).trans (g.keep x hx), g.holds⟩

theorem search_name (hD : DesignOK D) (hI : Inv D c s) {c' : ScopeChain} (hc : c' <+: c) (hc0 : c' ≠ []) (hm : (c', m.termTypes) ∈ D) (n : Str) :
    s.searchTerminal n c' = .ok (m.resAt c' n) := by
  rw [(hI.modAt hD hc hc0).search, hI.terms.resOf hD hm]

theorem addNameBind_out (hD : DesignOK D) (hI : Inv D c s) (hm : (c, m.termTypes) ∈ D) {n : Str} {e : Ex} {ty : Str} (hn : n ∈ m.names)
    (he : e.flat = true) (hf : s.binds.get? (sigAt c n) = none) (h : s.addNameBind n e ty = .ok s') :
    Out D c s s' [⟨sigAt c n, c, m, .expr e⟩] := by
  simp only [BV.addNameBind, BV.nameDst, hI.cur, search_name hD hI (List.prefix_refl c) hI.ne hm, ok_bind, ModuleDef.resAt, if_pos hn] at h
  exact flow_out hD hI (List.prefix_refl c) hI.ne (List.prefix_refl c) hI.ne hm he hf h

theorem mem_names {d : DItem} {n : Str} {ty : TermType} (hd : d ∈ m.nodes) (h : d.term = some (n, ty)) : (n, ty) ∈ m.termTypes :=
  List.mem_filterMap.mpr ⟨d, hd, h⟩

theorem names_of {n : Str} {ty : TermType} (h : (n, ty) ∈ m.termTypes) : n ∈ m.names := List.mem_map.mpr ⟨_, h, rfl⟩

/-- Continuous assignments to whole signals. -/
theorem assign_does (hD : DesignOK D) (hm : (c, m.termTypes) ∈ D) {n : Str} {r : Ex} (hn : n ∈ m.names) (hr : r.flat = true) :
    Does D c over (fun s => s.visitAssign (.ident [] n) r) [⟨sigAt c n, c, m, .expr r⟩] := by
  intro s s' hI hfree _ h
  have hs := search_name hD hI (List.prefix_refl c) hI.ne hm n
  rw [ModuleDef.resAt, if_pos hn] at hs
  simp only [BV.visitAssign, BV.addBind, BV.getDestinations, BV.getDsts, BV.getDst, hI.cur, hs, ok_bind, if_true] at h
  exact flow_out hD hI (List.prefix_refl c) hI.ne (List.prefix_refl c) hI.ne hm hr (hfree ⟨sigAt c n, c, m, .expr r⟩ (by simp)) h

/-- Declarations. -/
theorem node_does (hD : DesignOK D) (hm : (c, m.termTypes) ∈ D) {d : DItem} (hd : d ∈ m.nodes) (hc : d.covered m.names = true) :
    Does D c over (fun s => s.visitNode d) (declEqns m c over d) := by
  intro s s' hI hfree hover h
  cases d with
  | var v =>
    simp only [DItem.covered, Option.isNone_iff_eq_none] at hc
    simp only [BV.visitNode, hc] at h
    exact addTerm_out hI hm (mem_names hd rfl) h
  | int n v =>
    simp only [BV.visitNode] at h
    exact addTerm_out hI hm (mem_names hd rfl) h
  | real n =>
    simp only [BV.visitNode, ok_inj] at h
    subst h
    exact Does.id (over := []) s _ hI (by simp) (by simp) rfl
  | genvar n => simp [DItem.covered] at hc
  | param loc p =>
    simp only [DItem.covered] at hc
    cases loc with
    | true =>
      have hmem : (p.name, TermType.localparam) ∈ m.termTypes := mem_names hd rfl
      simp only [BV.visitNode, BV.visitLocalparam, bind_ok] at h
      obtain ⟨s1, h1, s2, h2, h3⟩ := h
      have o1 := addTerm_out hI hm hmem h1
      have o2 := constValue_out o1.inv h2
      have hf := (o2.keep (sigAt c p.name) (by simp)).1 ((o1.keep (sigAt c p.name) (by simp)).1 (hfree ⟨sigAt c p.name, c, m, .expr p.value⟩ (by simp [declEqns])))
      have := o1.after (o2.after (addNameBind_out hD o2.inv hm (names_of hmem) hc hf h3))
      simpa [declEqns] using this
    | false =>
      have hmem : (p.name, TermType.parameter) ∈ m.termTypes := mem_names hd rfl
      simp only [BV.visitNode, BV.visitParam, bind_ok] at h
      obtain ⟨s1, h1, s2, h2, h3⟩ := h
      have o1 := addTerm_out hI hm hmem h1
      have o2 := constValue_out o1.inv h2
      have o12 := o1.after o2
      rw [o2.inv.cur] at h3
      by_cases ho : p.name ∈ over
      · obtain ⟨b, hb, hw⟩ := hover p.name ho
        obtain ⟨b', e1, _⟩ := (o12.keep (sigAt c p.name) (by simp)).2 b hb hw
        have e1' : s2.getBindlist (c ++ [⟨p.name, .signal, none⟩]) = [b'] := e1
        rw [e1', if_neg (by simp)] at h3
        cases h3
        simpa [declEqns, ho] using o12
      · have hf := (o12.keep (sigAt c p.name) (by simp)).1 (hfree ⟨sigAt c p.name, c, m, .expr p.value⟩ (by simp [declEqns, ho]))
        have e1' : s2.getBindlist (c ++ [⟨p.name, .signal, none⟩]) = [] := by
          show s2.getBindlist (sigAt c p.name) = []
          simp [BV.getBindlist, hf, BV.deref]
        rw [e1', if_pos rfl] at h3
        have := o12.after (addNameBind_out hD o2.inv hm (names_of hmem) hc hf h3)
        simpa [declEqns, ho] using this
  | supply n one w sg =>
    have hmem : (n, TermType.supply) ∈ m.termTypes := mem_names hd rfl
    simp only [BV.visitNode, bind_ok] at h
    obtain ⟨s1, h1, h2⟩ := h
    have o1 := addTerm_out hI hm hmem h1
    have hf := (o1.keep (sigAt c n) (by simp)).1 (hfree ⟨sigAt c n, c, m, .expr (.intc [if one then '1' else '0'])⟩ (by simp [declEqns]))
    exact o1.after (addNameBind_out hD o1.inv hm (names_of hmem) rfl hf h2)
  | assign l r =>
    cases l with
    | ident sc n =>
      cases sc with
      | nil =>
        simp only [DItem.covered, Bool.and_eq_true, decide_eq_true_eq] at hc
        exact assign_does (over := over) hD hm hc.1 hc.2 s s' hI hfree hover h
      | cons a as => simp [DItem.covered] at hc
    | _ => simp [DItem.covered] at hc

/-! ### Constants of a frame -/

theorem firstConsts_mem {d : ConstDef} (ds : List ConstDef) : ∀ seen, d ∈ firstConsts ds seen → d ∈ ds := by
  induction ds with
  | nil => intro seen h; simp [firstConsts] at h
  | cons e ds ih =>
    intro seen h
    simp only [firstConsts] at h
    split at h
    · exact List.mem_cons_of_mem _ (ih _ h)
    · rcases List.mem_cons.mp h with h | h
      · simp [h]
      · exact List.mem_cons_of_mem _ (ih _ h)

theorem consts_mem {d : ConstDef} (h : d ∈ m.consts) : (d.name, d.type) ∈ m.termTypes := by
  have := firstConsts_mem _ _ h
  have h2 : d ∈ m.nodes.filterMap DItem.const := by
    rcases List.mem_append.mp this with h | h
    · exact (List.mem_filter.mp h).1
    · exact h
  obtain ⟨i, hi, hc⟩ := List.mem_filterMap.mp h2
  refine mem_names hi ?_
  cases i <;> simp only [DItem.const, Option.some.injEq, reduceCtorEq] at hc <;> subst hc <;> rfl

/-- Only the constants differ. -/
def Eq0 (s s' : BV) : Prop := ∃ o, s' = { s with octx := o }

theorem Eq0.trans {s s1 s2 : BV} (h : Eq0 s s1) (g : Eq0 s1 s2) : Eq0 s s2 := by
  obtain ⟨o, rfl⟩ := h
  obtain ⟨o', rfl⟩ := g
  exact ⟨o', rfl⟩

theorem Eq0.out (hI : Inv D c s) (h : Eq0 s s') : Out D c s s' [] := by
  obtain ⟨o, rfl⟩ := h
  exact out_terms hI rfl rfl rfl rfl rfl hI.terms

theorem constPass_eq0 (scope : ScopeChain) (ds : List ConstDef) : ∀ (s : BV) r, BV.constPass scope ds s = .ok r → Eq0 s r.1 := by
  induction ds with
  | nil => intro s r h; simp only [BV.constPass, ok_inj] at h; subst h; exact ⟨_, rfl⟩
  | cons d ds ih =>
    intro s r h
    simp only [BV.constPass] at h
    split at h
    · exact ih s r h
    · split at h
      · exact ih s r h
      · simp only [bind_ok] at h
        obtain ⟨t, _, v, _, h⟩ := h
        split at h
        · have := ih _ r h
          exact Eq0.trans ⟨_, rfl⟩ this
        · simp only [bind_ok, ok_inj] at h
          obtain ⟨r', h, rfl⟩ := h
          exact ih s r' h

theorem constLoop_eq0 (scope : ScopeChain) (ds : List ConstDef) (k : Nat) : ∀ (s s' : BV), BV.constLoop scope ds k s = .ok s' → Eq0 s s' := by
  induction k with
  | zero => intro s s' h; simp [BV.constLoop] at h
  | succ k ih =>
    intro s s' h
    simp only [BV.constLoop, bind_ok] at h
    obtain ⟨r, hr, h⟩ := h
    have h1 := constPass_eq0 scope ds s r hr
    split at h
    · cases h; exact h1
    · exact h1.trans (ih _ _ h)

theorem constTerms_eq0 (scope : ScopeChain) (ds : List ConstDef) : ∀ (s s' : BV), ds.foldlM (fun (st : BV) d => do
    let t ← st.constTerm d scope
    .ok (st.setConstTerm t.name t)) s = .ok s' → Eq0 s s' := by
  induction ds with
  | nil => intro s s' h; simp only [List.foldlM_nil, py_pure, ok_inj] at h; subst h; exact ⟨_, rfl⟩
  | cons d ds ih =>
    intro s s' h
    simp only [List.foldlM_cons, bind_ok, ok_inj] at h
    obtain ⟨s1, ⟨t, _, rfl⟩, h⟩ := h
    exact Eq0.trans ⟨_, rfl⟩ (ih _ _ h)

theorem copyFrameInfo_eq0 {scope : ScopeChain} (h : s.copyFrameInfo m scope = .ok s') :
    Eq0 { s with terms := (m.consts.map (fun d => (d.name, d.type))).foldl (addTypeTerm scope) s.terms } s' := by
  simp only [BV.copyFrameInfo, bind_ok] at h
  obtain ⟨s2, h2, h3⟩ := h
  exact (constTerms_eq0 _ _ _ _ h2).trans (constLoop_eq0 _ _ _ _ _ h3)

theorem typeTerms_ok (hm : (c, m.termTypes) ∈ D) (l : List (Str × TermType)) (hl : ∀ d ∈ l, d ∈ m.termTypes) :
    ∀ ts, TermsOK D ts → TermsOK D (l.foldl (addTypeTerm c) ts) := by
  induction l with
  | nil => intro ts h; exact h
  | cons d l ih =>
    intro ts h
    exact ih (fun e he => hl e (by simp [he])) _ (terms_add h (decl_of hm (hl d (by simp))) rfl rfl _)

theorem copyFrameInfo_out (hI : Inv D c s) (hm : (c, m.termTypes) ∈ D) (h : s.copyFrameInfo m c = .ok s') : Out D c s s' [] := by
  have o1 : Out D c s { s with terms := (m.consts.map (fun d => (d.name, d.type))).foldl (addTypeTerm c) s.terms } [] := by
    refine out_terms hI rfl rfl rfl rfl rfl (typeTerms_ok hm _ ?_ _ hI.terms)
    intro d hd
    obtain ⟨e, he, rfl⟩ := List.mem_map.mp hd
    exact consts_mem he
  exact o1.after (Eq0.out o1.inv (copyFrameInfo_eq0 h))

end

end Pyv
