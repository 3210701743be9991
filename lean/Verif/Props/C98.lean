import Verif.Props.C97
/-
  C98: continuous assignments to undeclared names.
-/
namespace Pyv

/-! ### Specification -/

/-- The name is declared neither in the scope of the item nor in a scope around it. -/
def BV.Undeclared (s : BV) (n : Str) : Prop := s.searchTerminal n s.current = .ok none

/-- The name of a signal declared in the current scope. -/
def BV.here (s : BV) (n : Str) : ScopeChain := s.current ++ [⟨n, .signal, none⟩]

/-- A signal of one bit. -/
def bitOf (c : ScopeChain) (ty : TermType) : Term := ⟨c, [ty], .intc ['0'], .intc ['0'], none⟩

/-- Both tables of declarations are those of before, and one more signal. -/
def Declares (s s' : BV) (c : ScopeChain) (t : Term) : Prop :=
  s.terms.get? c = none ∧ (∀ k, s'.terms.get? k = if k = c then some t else s.terms.get? k) ∧
  ∀ k, s'.octx.terms.get? k = if k = c then some t else s.octx.terms.get? k

/-- Both tables of declarations are unchanged. -/
def SameDecls (s s' : BV) : Prop := s'.terms = s.terms ∧ s'.octx.terms = s.octx.terms

/-! ### Proofs -/

theorem SameDecls.trans {s s1 s2 : BV} (h1 : SameDecls s s1) (h2 : SameDecls s1 s2) : SameDecls s s2 := ⟨h2.1.trans h1.1, h2.2.trans h1.2⟩

theorem addBindObj_decls (s : BV) (n : ScopeChain) (i : Nat) (b : Bind) : SameDecls s (s.addBindObj n i b) := by
  unfold BV.addBindObj
  split
  · exact ⟨rfl, rfl⟩
  · split <;> exact ⟨rfl, rfl⟩

theorem addBindObj_fresh {s : BV} {c : ScopeChain} {b : Bind} (h : s.binds.get? c = none) :
    ((s.alloc b).addBindObj c s.objs.length b).getBindlist c = [b] := by
  have e : (s.alloc b).addBindObj c s.objs.length b = { s.alloc b with binds := Dict.set s.binds c [s.objs.length] } := by
    unfold BV.addBindObj
    have : (s.alloc b).binds.get? c = none := h
    rw [this]; rfl
  rw [e]
  simp only [BV.getBindlist, Dict.get?_set, if_true, Option.getD_some, BV.deref]
  have : (s.alloc b).objs[s.objs.length]? = some b := by simp [BV.alloc]
  simp [this]

theorem setDataflow1_decls {raw : DF} {path : CondPath} {k : Nat} {ty} {s s' : BV} {d : PDst}
    (h : BV.setDataflow1 raw path k none ty s d = .ok s') :
    ∃ b n, d.name = some n ∧ s.makeBind d raw path k none ty = .ok b ∧ b.dest = n ∧ b.msb = d.msb ∧ b.lsb = d.lsb ∧ b.ptr = d.ptr ∧
      s' = (s.alloc b).addBindObj n s.objs.length b := by
  unfold BV.setDataflow1 at h
  obtain ⟨b, hb, h⟩ := bind_ok.mp h
  simp only [ok_inj] at h
  have hb' := hb
  unfold BV.makeBind at hb
  split at hb
  · simp at hb
  · rename_i n hn
    dsimp only at hb
    obtain ⟨t, _, hb⟩ := bind_ok.mp hb
    obtain ⟨t', _, hb⟩ := bind_ok.mp hb
    rw [ok_inj] at hb
    subst hb
    exact ⟨_, n, hn, hb', rfl, rfl, rfl, rfl, h.symm⟩

theorem searchTerminal_none {s : BV} {n : Str} {scope : ScopeChain} (hne : scope ≠ []) (h : s.searchTerminal n scope = .ok none) :
    s.terms.get? (scope ++ [⟨n, .signal, none⟩]) = none := by
  rw [BV.searchTerminal] at h
  simp only [hne, dite_false] at h
  split at h
  · simp at h
  · rename_i hh
    cases hg : s.terms.get? (scope ++ [⟨n, .signal, none⟩]) with
    | none => rfl
    | some t => exact absurd (Dict.has_of_get? hg) hh

theorem searchTerminal_here {s : BV} {n : Str} {scope : ScopeChain} {t : Term} (hne : scope ≠ [])
    (h : s.terms.get? (scope ++ [⟨n, .signal, none⟩]) = some t) : s.searchTerminal n scope = .ok (some (scope ++ [⟨n, .signal, none⟩])) := by
  rw [BV.searchTerminal]
  simp only [hne, dite_false, Dict.has_of_get? h, if_true]

theorem addImplicit_declares {s : BV} {ty : TermType} {n : Str} {scope : ScopeChain}
    (h : s.terms.get? (scope ++ [⟨n, .signal, none⟩]) = none) :
    Declares s (s.addImplicit ty n scope) (scope ++ [⟨n, .signal, none⟩]) (bitOf (scope ++ [⟨n, .signal, none⟩]) ty) := by
  refine ⟨h, fun k => ?_, fun k => ?_⟩
  · simp only [BV.addImplicit, DataFlow.addTerm, h, Dict.get?_set, eq_comm, bitOf]
  · simp only [BV.addImplicit, Dict.get?_set, eq_comm, bitOf]

/-- The destination of an assignment to an undeclared name, by the kind of nets. -/
theorem getDst_undeclared {s : BV} {n : Str} (hu : s.Undeclared n) :
    s.getDst s.current (.ident [] n) = (do
      let s' ← s.implicit n s.current
      let r ← s'.searchTerminal n s.current
      .ok (⟨r, .none, .none, .none⟩, s')) := by
  unfold BV.Undeclared at hu
  simp only [BV.getDst, hu, ok_bind, if_true]

theorem visitAssign_dst {s s' : BV} {n : Str} {r : Ex} (h : s.visitAssign (.ident [] n) r = .ok s') :
    ∃ d s1 raw p b c, s.getDst s.current (.ident [] n) = .ok (d, s1) ∧ d.name = some c ∧ s1.path s1.current = .ok p ∧
      s1.getTree r s1.current = .ok raw ∧ s1.makeBind ⟨d, .none, .none⟩ raw p 1 none "assign".toList = .ok b ∧ b.dest = c ∧
      b.msb = d.msb ∧ b.lsb = d.lsb ∧ b.ptr = d.ptr ∧ s' = (s1.alloc b).addBindObj c s1.objs.length b := by
  unfold BV.visitAssign BV.addBind at h
  obtain ⟨⟨ds, s1⟩, h1, h⟩ := bind_ok.mp h
  simp only at h
  obtain ⟨p, hp, h⟩ := bind_ok.mp h
  obtain ⟨raw, hr, h⟩ := bind_ok.mp h
  unfold BV.getDestinations BV.getDsts at h1
  obtain ⟨⟨ds', s2⟩, h2, h1⟩ := bind_ok.mp h1
  obtain ⟨⟨d, s3⟩, h3, h2⟩ := bind_ok.mp h2
  simp only [ok_inj, Prod.mk.injEq] at h2
  obtain ⟨rfl, rfl⟩ := h2
  simp only [ok_inj, Prod.mk.injEq] at h1
  obtain ⟨rfl, rfl⟩ := h1
  unfold BV.setDataflow at h
  rw [List.foldlM_cons] at h
  obtain ⟨s4, h4, h⟩ := bind_ok.mp h
  rw [List.foldlM_nil] at h
  have h' : (Except.ok s4 : Py BV) = .ok s' := h
  rw [ok_inj] at h'; subst h'
  obtain ⟨b, c, q1, q2, q3, q4, q5, q6, q7⟩ := setDataflow1_decls h4
  exact ⟨d, s3, raw, p, b, c, h3, q1, hp, hr, q2, q3, q4, q5, q6, q7⟩

theorem implicit_wire {s : BV} (hn : s.nettype = "wire".toList) (n : Str) (c : ScopeChain) : s.implicit n c = .ok (s.addImplicit .wire n c) := by
  have e1 : hasSub "none".toList "wire".toList = false := by decide
  have e2 : hasSub "wire".toList "wire".toList = true := by decide
  have e3 : hasSub "reg".toList "wire".toList = false := by decide
  have e4 : (s.addImplicit .wire n c).nettype = s.nettype := rfl
  unfold BV.implicit
  simp only [hn, e1, e2, if_true, e4, e3]
  simp

/-- **C98**: a continuous assignment to a name that is declared nowhere declares it, as a wire of one bit in the scope of the
assignment, and nothing else; afterwards the name is found, and the recorded assignment is one to this wire as a whole. -/
theorem C98_declares_partial (s s' : BV) (n : Str) (r : Ex) (hne : s.current ≠ []) (hw : s.nettype = "wire".toList) (hu : s.Undeclared n)
    (h : s.visitAssign (.ident [] n) r = .ok s') :
    Declares s s' (s.here n) (bitOf (s.here n) .wire) ∧ s'.searchTerminal n s'.current = .ok (some (s.here n)) ∧
    (s.binds.get? (s.here n) = none → ∃ b, s'.getBindlist (s.here n) = [b] ∧ b.dest = s.here n ∧ b.whole) ∧ s'.current = s.current := by
  obtain ⟨d, s1, raw, p, b, c, h1, hc, hp, hr, hb, q1, q2, q3, q4, rfl⟩ := visitAssign_dst h
  rw [getDst_undeclared hu, implicit_wire hw, ok_bind] at h1
  have hnone := searchTerminal_none hne hu
  have D := addImplicit_declares (ty := .wire) hnone
  have hs : (s.addImplicit .wire n s.current).searchTerminal n s.current = .ok (some (s.here n)) :=
    searchTerminal_here hne (by rw [D.2.1]; exact if_pos rfl)
  rw [hs, ok_bind, ok_inj, Prod.mk.injEq] at h1
  obtain ⟨rfl, rfl⟩ := h1
  simp only [Option.some.injEq] at hc
  subst hc
  have A := addBindObj_decls ((s.addImplicit .wire n s.current).alloc b) (s.here n) (s.addImplicit .wire n s.current).objs.length b
  have hcur := (addBindObj_stays ((s.addImplicit .wire n s.current).alloc b) (s.here n) (s.addImplicit .wire n s.current).objs.length b).1
  refine ⟨⟨D.1, fun k => ?_, fun k => ?_⟩, ?_, ?_, hcur⟩
  · rw [A.1]; exact D.2.1 k
  · rw [A.2]; exact D.2.2 k
  · rw [hcur]
    refine searchTerminal_here (t := bitOf (s.here n) .wire) hne ?_
    rw [A.1]; exact (D.2.1 _).trans (if_pos rfl)
  · intro hb0
    refine ⟨b, ?_, q1, ?_⟩
    · exact addBindObj_fresh (s := s.addImplicit .wire n s.current) hb0
    · exact ⟨q2, q3, q4⟩

/-- **C98**: under `` `default_nettype none `` such an assignment is refused, whatever is assigned. -/
theorem C98_none (s : BV) (n : Str) (r : Ex) (hw : s.nettype = "none".toList) (hu : s.Undeclared n) :
    s.visitAssign (.ident [] n) r = .error .format := by
  have e1 : hasSub "none".toList "none".toList = true := by decide
  unfold BV.visitAssign BV.addBind BV.getDestinations BV.getDsts
  rw [getDst_undeclared hu]
  unfold BV.implicit
  simp only [hw, e1, if_true]
  rfl

/-- **C98**: an assignment to a declared name declares nothing. -/
theorem C98_declared (s s' : BV) (n : Str) (r : Ex) (c : ScopeChain) (hd : s.searchTerminal n s.current = .ok (some c))
    (h : s.visitAssign (.ident [] n) r = .ok s') : SameDecls s s' := by
  obtain ⟨d, s1, raw, p, b, c', h1, hc, hp, hr, hb, q1, q2, q3, q4, rfl⟩ := visitAssign_dst h
  simp only [BV.getDst, hd, ok_bind, if_true, ok_inj, Prod.mk.injEq] at h1
  obtain ⟨rfl, rfl⟩ := h1
  exact SameDecls.trans (s1 := s.alloc b) ⟨rfl, rfl⟩ (addBindObj_decls _ _ _ _)

/-- **C98** fails for the other kinds of nets, for all assignments: under `` `default_nettype tri `` (and wand, wor, tri0, tri1,
triand, trior) an undeclared name is refused. -/
theorem C98_fails_tri (s s' : BV) (n : Str) (r : Ex)
    (hw : s.nettype ∈ ["tri", "wand", "wor", "tri0", "tri1", "triand", "trior"].map String.toList) (hu : s.Undeclared n) :
    s.visitAssign (.ident [] n) r ≠ .ok s' := by
  intro h
  obtain ⟨d, s1, raw, p, b, c, h1, hc, _⟩ := visitAssign_dst h
  have e : hasSub "none".toList s.nettype = false ∧ hasSub "wire".toList s.nettype = false ∧ hasSub "reg".toList s.nettype = false := by
    revert hw; generalize s.nettype = k; revert k; decide
  rw [getDst_undeclared hu] at h1
  unfold BV.implicit at h1
  have hf : (false = true) = False := by simp
  simp only [e.1, e.2.1, e.2.2, hf, if_false, ok_bind] at h1
  unfold BV.Undeclared at hu
  rw [hu, ok_bind, ok_inj, Prod.mk.injEq] at h1
  obtain ⟨rfl, _⟩ := h1
  cases hc

/-- **C98** fails in always blocks: a blocking assignment to an undeclared name, which is an error in Verilog, is accepted. -/
theorem C98_fails_always : (match (Stmt.ba (c58i "zz") (.intc ['1'])).visit c97s with
    | .ok s => some ((s.terms.get? (c97s.here "zz".toList)).map (·.types)) | .error _ => none) = some (some [.wire]) := by decide +kernel

/-- The module of C58: `assign w = a;` declares `w`. -/
example : c58s.Undeclared "w".toList ∧ c58s.current ≠ [] ∧ c58s.nettype = "wire".toList ∧ c58s.binds.get? (c58s.here "w".toList) = none ∧
    (match c58s.visitAssign (c58i "w") (c58i "a") with
     | .ok s => some ((s.terms.get? (c58s.here "w".toList)).map (fun t => (t.types, t.msb, t.lsb)),
         (s.getBindlist (c58s.here "w".toList)).map (·.tree)) | .error _ => none) =
      some (some ([.wire], .intc ['0'], .intc ['0']), [.term (c58n "a")]) := by
  refine ⟨?_, by decide, by decide, by decide +kernel, ?_⟩
  · unfold BV.Undeclared; decide +kernel
  · decide +kernel

end Pyv
