import Verif.Props.ElabTable
/-
  C75: instances and the traversal of a design.
-/
namespace Pyv

section
variable {D : Decls} {c : ScopeChain} {s s' : BV} {m : ModuleDef} {over : List Str}

theorem Out.seq {s1 : BV} {qs rs : List Eqn} (o1 : Out D c s s1 qs) (o2 : Out D c s1 s' rs)
    (hdisj : ∀ q ∈ qs, ∀ r ∈ rs, q.target ≠ r.target) : Out D c s s' (qs ++ rs) := by
  refine ⟨o2.inv, fun c' hc => (o2.frames c' hc).trans (o1.frames c' hc), ?_, ?_⟩
  · intro x hx
    exact (o1.keep x (fun q hq => hx q (by simp [hq]))).trans (o2.keep x (fun q hq => hx q (by simp [hq])))
  · intro q hq
    rcases List.mem_append.mp hq with hq | hq
    · exact (o1.holds q hq).mono o2.inv.objs o1.inv.empty (o2.keep _ (fun r hr => (hdisj q hq r hr).symm))
    · exact o2.holds q hq

/-- The steps of a list, each with the equations of the whole list different. -/
theorem Does.fold' {α : Type} {f : BV → α → Py BV} {g : α → List Eqn} (l : List α)
    (h : ∀ a ∈ l, ((g a).map Eqn.target).Nodup → (∀ n ∈ over, sigAt c n ∉ (g a).map Eqn.target) → Does D c over (fun s => f s a) (g a))
    (hnd : ((l.flatMap g).map Eqn.target).Nodup) (ho : ∀ n ∈ over, sigAt c n ∉ (l.flatMap g).map Eqn.target) :
    Does D c over (fun s => l.foldlM f s) (l.flatMap g) := by
  refine Does.fold l (fun a ha => h a ha ?_ ?_) hnd ho
  · refine hnd.sublist (List.Sublist.map _ ?_)
    obtain ⟨l1, l2, rfl⟩ := List.append_of_mem ha
    simp only [List.flatMap_append, List.flatMap_cons]
    exact ((List.sublist_append_left (g a) _).trans (List.sublist_append_right _ _))
  · intro n hn hm
    obtain ⟨q, hq, he⟩ := List.mem_map.mp hm
    exact ho n hn (List.mem_map.mpr ⟨q, List.mem_flatMap.mpr ⟨a, ha, hq⟩, he⟩)

/-! ### Parameters -/

theorem params_names {n : Str} (h : n ∈ m.paramNames) : n ∈ m.names := by
  simp only [ModuleDef.paramNames, List.mem_append, List.mem_map, List.mem_filterMap] at h
  rcases h with ⟨p, hp, rfl⟩ | ⟨d, hd, he⟩
  · refine names_of (ty := .parameter) (mem_names (d := .param false p) ?_ rfl)
    simp only [ModuleDef.nodes, List.mem_append, List.mem_map]
    exact .inl (.inl ⟨p, hp, rfl⟩)
  · split at he
    · rename_i p
      cases he
      refine names_of (ty := .parameter) (mem_names (d := .param false p) ?_ rfl)
      simp only [ModuleDef.nodes, List.mem_append]
      exact .inr hd
    · cases he

variable {ch : ModuleDef} {sub : ScopeChain}

/-- The values of the parameters of an instance. -/
theorem instParam_does (hD : DesignOK D) (hm : (c, m.termTypes) ∈ D) (hs : (sub, ch.termTypes) ∈ D) (hc0 : c ≠ []) (hsub : c <+: sub)
    {p : PArg × Nat} (hp : (match p.1.arg with | some e => e.flat | none => false) = true) :
    Does D sub [] (fun s => BV.instParam ch.paramNames c s p) (paramEqns m c sub ch.paramNames p) := by
  intro s s' hI hfree _ h
  simp only [BV.instParam] at h
  cases hn : ch.paramNames[p.2]? with
  | none => simp [hn] at h
  | some d =>
    simp only [hn, BV.nameDst, hI.cur, search_name hD hI (List.prefix_refl sub) hI.ne hs, ok_bind] at h
    have hformal : formal ch.paramNames p = some (p.1.name.getD d) := by
      unfold formal
      cases p.1.name <;> simp [hn]
    cases ha : p.1.arg with
    | none => simp [ha] at h
    | some e =>
      simp only [ha] at hp
      simp only [ha, bind_ok] at h
      obtain ⟨s1, h1, t, _, v, _, h2⟩ := h
      split at h2
      · rename_i hmem
        rw [ModuleDef.resAt, if_pos (params_names hmem)] at h1
        simp only [paramEqns, hformal, ha] at hfree ⊢
        have o1 := flow_out hD hI (List.prefix_refl sub) hI.ne hsub hc0 hm hp (hfree ⟨sigAt sub (p.1.name.getD d), c, m, .expr e⟩ (List.mem_singleton.mpr rfl)) h1
        simp only [bind_ok, ok_inj] at h2
        obtain ⟨_, _, rfl⟩ := h2
        have o2 : Out D sub s1 ((s1.setConst (s1.current ++ [⟨p.1.name.getD d, .signal, none⟩]) v).setConstTerm
            (s1.current ++ [⟨p.1.name.getD d, .signal, none⟩])
            ⟨s1.current ++ [⟨p.1.name.getD d, .signal, none⟩], [.parameter], .intc "31".toList, .intc ['0'], none⟩) [] :=
          out_terms o1.inv rfl rfl rfl rfl rfl o1.inv.terms
        simpa using o1.seq o2 (by simp)
      · cases h2

/-! ### Ports -/

/-- Only directions matter. -/
def isDir (t : TermType) : Bool := t = .input ∨ t = .output ∨ t = .inout

theorem connect_fold (ldst : List PDst) (port : Str) (e : Ex) (l r : ScopeChain) (ts : List TermType) : ∀ s : BV,
    ts.foldlM (BV.connectAs ldst port e l r) s = (ts.filter isDir).foldlM (BV.connectAs ldst port e l r) s := by
  induction ts with
  | nil => intro s; rfl
  | cons t ts ih =>
    intro s
    rw [List.filter_cons]
    split
    · simp only [List.foldlM_cons, ih]
    · rename_i h
      have : BV.connectAs ldst port e l r s t = .ok s := by
        cases t <;> first | rfl | simp [isDir] at h
      simp only [List.foldlM_cons, this, ok_bind, ih]

theorem filter_one {l : List TermType} (hnd : l.Nodup) {d : TermType} (h : ∀ t, (t ∈ l ∧ isDir t = true) ↔ t = d) : l.filter isDir = [d] := by
  have h1 : ∀ t, t ∈ l.filter isDir ↔ t = d := fun t => by rw [List.mem_filter]; exact h t
  have h2 := hnd.filter isDir
  cases hf : l.filter isDir with
  | nil => have := (h1 d).mpr rfl; rw [hf] at this; cases this
  | cons a as =>
    rw [hf] at h1 h2
    have ha : a = d := (h1 a).mp (by simp)
    subst ha
    cases as with
    | nil => rfl
    | cons b bs =>
      have hb : b = a := (h1 b).mp (by simp)
      subst hb
      simp at h2

theorem types_dir (hI : Inv D sub s) (hD : DesignOK D) (hs : (sub, ch.termTypes) ∈ D) {n : Str} {d : TermType} (hd : ch.dirs n = [d]) {t : Term}
    (ht : s.terms.get? (sigAt sub n) = some t) : t.types.filter isDir = [d] := by
  obtain ⟨-, t2, t3, -⟩ := hI.terms.sound _ t ht
  have hiff : ∀ ty, ty ∈ t.types ↔ (n, ty) ∈ ch.termTypes := by
    intro ty
    constructor
    · intro h
      obtain ⟨sc, tys, n', h1, h2, h3⟩ := t3 ty h
      obtain ⟨rfl, rfl⟩ := sigAt_inj h3
      have := hD.once _ h1 _ hs rfl
      simp only [Prod.mk.injEq, true_and] at this
      subst this
      exact h2
    · intro h
      obtain ⟨t', h1, h2⟩ := hI.terms.complete _ ty (decl_of hs h)
      rw [ht] at h1
      cases h1
      exact h2
  refine filter_one t2 (fun ty => ?_)
  rw [hiff]
  have : ty ∈ ch.dirs n ↔ (n, ty) ∈ ch.termTypes ∧ isDir ty = true := by
    simp only [ModuleDef.dirs, List.mem_map, List.mem_filter, isDir, decide_eq_true_eq]
    constructor
    · rintro ⟨⟨a, b⟩, ⟨h1, h2, h3⟩, h4⟩
      simp only at h2 h3 h4
      subst h2 h4
      exact ⟨h1, h3⟩
    · rintro ⟨h1, h2⟩
      exact ⟨(n, ty), ⟨h1, rfl, h2⟩, rfl⟩
  rw [← this, hd, List.mem_singleton]

/-- An output that drives a whole signal of the parent. -/
theorem output_out (hD : DesignOK D) (hI : Inv D sub s) (hm : (c, m.termTypes) ∈ D) (hs : (sub, ch.termTypes) ∈ D) (hc0 : c ≠ []) (hsub : c <+: sub)
    {y port : Str} (hy : y ∈ m.names) (hf : s.binds.get? (sigAt c y) = none)
    (h : (do let (rdst, s1) ← s.exprDst (.ident [] y) c; s1.addFlow rdst (.ident [] port) c sub []) = .ok s') :
    Out D sub s s' [⟨sigAt c y, sub, ch, .expr (.ident [] port)⟩] := by
  have hs' := search_name hD hI hsub hc0 hm y
  rw [ModuleDef.resAt, if_pos hy] at hs'
  simp only [BV.exprDst, BV.getDestinations, BV.getDsts, BV.getDst, hs', ok_bind, if_true] at h
  exact flow_out hD hI hsub hc0 (List.prefix_refl sub) hI.ne hs rfl hf h

theorem connect_out (hD : DesignOK D) (hm : (c, m.termTypes) ∈ D) (hs : (sub, ch.termTypes) ∈ D) (hc0 : c ≠ []) (hsub : c <+: sub)
    {p : PArg × Nat} {n : Str} (hn : formal ch.portNames p = some n) (hp : portCovered m.names ch p = true)
    (hnd : ((portEqns m ch c sub p).map Eqn.target).Nodup)
    (hI : Inv D sub s) (hfree : ∀ q ∈ portEqns m ch c sub p, s.binds.get? q.target = none) (h : s.connect n p.1.arg sub c none = .ok s') :
    Out D sub s s' (portEqns m ch c sub p) := by
  simp only [BV.connect, search_name hD hI (List.prefix_refl sub) hI.ne hs, ok_bind, ModuleDef.resAt] at h
  cases ha : p.1.arg with
  | none =>
    have he : portEqns m ch c sub p = [] := by simp [portEqns, hn, ha]
    rw [he]
    rw [ha] at h
    split at h
    · cases h
    · split at h
      · cases h
      · cases h
        exact Does.id (over := []) s _ hI (by simp) (by simp) rfl
  | some e =>
    simp only [portCovered, hn, ha, Bool.and_eq_true] at hp
    obtain ⟨hflat, hp⟩ := hp
    by_cases hmem : n ∈ ch.names
    · simp only [if_pos hmem, ha] at h
      split at h
      · cases h
      · rename_i t ht
        rw [connect_fold] at h
        simp only [indexed] at h
        simp only [portEqns, hn, ha] at hfree hnd ⊢
        split at hp
        · rename_i hd
          simp only [types_dir hI hD hs hd ht, List.foldlM_cons, List.foldlM_nil, bind_ok, py_pure, ok_inj, BV.connectAs] at h
          obtain ⟨s1, h1, rfl⟩ := h
          simp only [hd] at hfree ⊢
          exact flow_out hD hI (List.prefix_refl sub) hI.ne hsub hc0 hm hflat (hfree ⟨_, c, m, .expr _⟩ (List.mem_singleton.mpr rfl)) h1
        · rename_i y hd
          simp only [decide_eq_true_eq] at hp
          rw [types_dir hI hD hs hd ht] at h
          simp only [List.foldlM_cons, List.foldlM_nil, bind_ok, py_pure, ok_inj] at h
          obtain ⟨s1, h1, rfl⟩ := h
          simp only [hd] at hfree ⊢
          exact output_out hD hI hm hs hc0 hsub hp (hfree ⟨sigAt c y, sub, ch, .expr (.ident [] n)⟩ (List.mem_singleton.mpr rfl)) h1
        · rename_i y hd
          simp only [decide_eq_true_eq] at hp
          rw [types_dir hI hD hs hd ht] at h
          simp only [List.foldlM_cons, List.foldlM_nil, bind_ok, py_pure, ok_inj] at h
          obtain ⟨s2, h2, rfl⟩ := h
          simp only [BV.connectAs] at h2
          rw [bind_ok] at h2
          obtain ⟨s1, h1, h2⟩ := h2
          simp only [hd] at hfree hnd ⊢
          simp only [List.map_cons, List.map_nil, List.nodup_cons, List.mem_singleton] at hnd
          have o1 := flow_out hD hI (List.prefix_refl sub) hI.ne hsub hc0 hm hflat (hfree ⟨_, c, m, .expr _⟩ (List.mem_cons_self ..)) h1
          have o2 := output_out hD o1.inv hm hs hc0 hsub hp ((o1.keep _ (by
            intro q hq; rw [List.mem_singleton] at hq; subst hq; exact hnd.1)).1 (hfree ⟨sigAt c y, sub, ch, .expr (.ident [] n)⟩ (by simp))) h2
          exact o1.seq o2 (by
            intro q hq r hr; rw [List.mem_singleton] at hq hr; subst hq hr; exact hnd.1)
        · cases hp
    · simp [if_neg hmem] at h

/-- The connections of an instance. -/
theorem instPort_does (hD : DesignOK D) (hm : (c, m.termTypes) ∈ D) (hs : (sub, ch.termTypes) ∈ D) (hc0 : c ≠ []) (hsub : c <+: sub)
    {p : PArg × Nat} (hp : portCovered m.names ch p = true) (hnd : ((portEqns m ch c sub p).map Eqn.target).Nodup) :
    Does D sub [] (fun s => BV.instPort ch.portNames c none s p) (portEqns m ch c sub p) := by
  intro s s' hI hfree _ h
  simp only [BV.instPort] at h
  cases hn : p.1.name with
  | some n =>
    simp only [hn] at h
    split at h
    · split at h
      · cases h
      · rw [hI.cur] at h
        exact connect_out hD hm hs hc0 hsub (n := n) (by simp [formal, hn]) hp hnd hI hfree h
    · split at h <;> cases h
  | none =>
    simp only [hn] at h
    split at h
    · cases h
    · rename_i n hpn
      rw [hI.cur] at h
      exact connect_out hD hm hs hc0 hsub (n := n) (by simp [formal, hn, hpn]) hp hnd hI hfree h

end

end Pyv
