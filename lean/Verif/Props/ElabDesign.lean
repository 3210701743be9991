import Verif.Props.ElabTop
/-
  C75: the recorded assignments of a design are its equations.
-/
namespace Pyv

section
variable {D : Decls}

/-- The terms have only declared names and types. -/
def TermsIn (D : Decls) (ts : Dict ScopeChain Term) : Prop :=
  ∀ k t, ts.get? k = some t → t.dims = none ∧ t.types.Nodup ∧ (∀ ty ∈ t.types, DeclIn D k ty) ∧ ∃ ty, DeclIn D k ty

theorem typeTerm_in {ts : Dict ScopeChain Term} (h : TermsIn D ts) {c : ScopeChain} {d : Str × TermType} (hd : DeclIn D (sigAt c d.1) d.2) :
    TermsIn D (addTypeTerm c ts d) := by
  intro k t hk
  simp only [addTypeTerm, DataFlow.addTerm] at hk
  split at hk
  · rename_i hn
    simp only at hk
    rw [Dict.get?_set] at hk
    split at hk
    · rename_i e
      subst e
      cases hk
      exact ⟨rfl, by simp, by intro ty hty; rw [List.mem_singleton] at hty; subst hty; exact hd, _, hd⟩
    · exact h k t hk
  · rename_i old ho
    simp only at hk
    rw [Dict.get?_set] at hk
    split at hk
    · rename_i e
      subst e
      cases hk
      obtain ⟨o1, o2, o3, o4⟩ := h _ old ho
      refine ⟨by simp [Term.merge, o1], nodup_setUnion o2 (by simp), ?_, o4⟩
      intro ty hty
      simp only [Term.merge, mem_setUnion, List.mem_singleton] at hty
      rcases hty with hty | rfl
      · exact o3 ty hty
      · exact hd
    · exact h k t hk

theorem typeTerm_has (ts : Dict ScopeChain Term) (c : ScopeChain) (d : Str × TermType) :
    (∃ t, (addTypeTerm c ts d).get? (sigAt c d.1) = some t ∧ d.2 ∈ t.types) ∧
    ∀ k ty, (∃ t, ts.get? k = some t ∧ ty ∈ t.types) → ∃ t, (addTypeTerm c ts d).get? k = some t ∧ ty ∈ t.types := by
  simp only [addTypeTerm, DataFlow.addTerm]
  split
  · rename_i hn
    refine ⟨⟨_, by simp only [Dict.get?_set]; exact if_pos rfl, by simp⟩, ?_⟩
    rintro k ty ⟨t, ht, hty⟩
    simp only [Dict.get?_set]
    rw [if_neg]
    · exact ⟨t, ht, hty⟩
    · rintro rfl
      rw [hn] at ht
      cases ht
  · rename_i old ho
    refine ⟨⟨_, by simp only [Dict.get?_set]; exact if_pos rfl, by simp [Term.merge, mem_setUnion]⟩, ?_⟩
    rintro k ty ⟨t, ht, hty⟩
    simp only [Dict.get?_set]
    split
    · rename_i e
      subst e
      rw [ho] at ht
      cases ht
      exact ⟨_, rfl, by simp [Term.merge, mem_setUnion, hty]⟩
    · exact ⟨t, ht, hty⟩

theorem typeTerms_in (c : ScopeChain) (l : List (Str × TermType)) (hl : ∀ d ∈ l, DeclIn D (sigAt c d.1) d.2) :
    ∀ ts, TermsIn D ts → TermsIn D (l.foldl (addTypeTerm c) ts) := by
  induction l with
  | nil => intro ts h; exact h
  | cons d l ih =>
    intro ts h
    exact ih (fun e he => hl e (by simp [he])) _ (typeTerm_in h (hl d (by simp)))

theorem typeTerms_has (c : ScopeChain) (l : List (Str × TermType)) : ∀ ts,
    (∀ d ∈ l, ∃ t, (l.foldl (addTypeTerm c) ts).get? (sigAt c d.1) = some t ∧ d.2 ∈ t.types) ∧
    ∀ k ty, (∃ t, ts.get? k = some t ∧ ty ∈ t.types) → ∃ t, (l.foldl (addTypeTerm c) ts).get? k = some t ∧ ty ∈ t.types := by
  induction l with
  | nil => intro ts; exact ⟨by simp, fun k ty h => h⟩
  | cons d l ih =>
    intro ts
    obtain ⟨i1, i2⟩ := ih (addTypeTerm c ts d)
    obtain ⟨t1, t2⟩ := typeTerm_has ts c d
    simp only [List.foldl_cons]
    refine ⟨?_, fun k ty h => i2 k ty (t2 k ty h)⟩
    intro e he
    rcases List.mem_cons.mp he with rfl | he
    · exact i2 _ _ t1
    · exact i1 e he

theorem allTerms_ok (ds : Decls) (hds : ∀ d ∈ ds, d ∈ D) : ∀ ts, TermsIn D ts →
    TermsIn D (ds.foldl (fun ts d => d.2.foldl (addTypeTerm d.1) ts) ts) ∧
    (∀ d ∈ ds, ∀ e ∈ d.2, ∃ t, (ds.foldl (fun ts d => d.2.foldl (addTypeTerm d.1) ts) ts).get? (sigAt d.1 e.1) = some t ∧ e.2 ∈ t.types) ∧
    ∀ k ty, (∃ t, ts.get? k = some t ∧ ty ∈ t.types) →
      ∃ t, (ds.foldl (fun ts d => d.2.foldl (addTypeTerm d.1) ts) ts).get? k = some t ∧ ty ∈ t.types := by
  induction ds with
  | nil => intro ts h; exact ⟨h, by simp, fun k ty h => h⟩
  | cons d ds ih =>
    intro ts h
    obtain ⟨i1, i2, i3⟩ := ih (fun e he => hds e (by simp [he])) _
      (typeTerms_in d.1 d.2 (fun e he => ⟨d.1, d.2, e.1, hds d (by simp), he, rfl⟩) ts h)
    obtain ⟨t1, t2⟩ := typeTerms_has d.1 d.2 ts
    simp only [List.foldl_cons]
    refine ⟨i1, ?_, fun k ty h => i3 k ty (t2 k ty h)⟩
    intro e he x hx
    rcases List.mem_cons.mp he with rfl | he
    · exact i3 _ _ (t1 x hx)
    · exact i2 e he x hx

/-- The state before the top module. -/
theorem start_inv (top : Str) (o : OptCtx) (fuel loops : Nat) {ts : Dict ScopeChain Term} (h : TermsOK D ts) :
    Inv D [⟨top, .module, none⟩]
      { frames := Dict.set [] [⟨top, .module, none⟩] { previous := [], isModule := true }
        current := [⟨top, .module, none⟩], terms := ts, octx := o, fuel := fuel, loops := loops } := by
  refine ⟨rfl, by simp, ?_, rfl, ?_, h, fun x => .inl rfl⟩
  · intro c' hc' hne
    have : c' = [⟨top, .module, none⟩] := by
      rcases c' with _ | ⟨a, c'⟩
      · exact absurd rfl hne
      · obtain ⟨r, hr⟩ := hc'
        simp only [List.cons_append, List.cons.injEq, List.append_eq_nil_iff] at hr
        rw [hr.1, hr.2.1]
    subst this
    exact ⟨{ previous := [], isModule := true }, by simp [Dict.get?_set], rfl, rfl, rfl⟩
  · intro n ids hn; cases hn

end

/-- **C75** (partial): the analysis of a design records, for every driven signal of the flattened hierarchy, one assignment
to the whole signal, whose tree has the value of its driver, whose names are resolved in the module instance where they are
written; a signal without driver has no assignment.  Covered are designs without functions, tasks, generate blocks, gate
primitives, arrays and instance arrays, where every signal has one driver, as a whole. -/
theorem C75_flatten_partial (ctx : OptCtx) (fuel loops depth : Nat) (ms : List ModuleDef) (top : Str) (s : BV)
    (h : generate ctx fuel loops depth ms top = .ok s) (hcov : ∀ m ∈ ms, m.covered ms = true)
    (hone : ((flatten ms depth top).map Eqn.target).Nodup) :
    (∀ q ∈ flatten ms depth top, q.Holds s) ∧
    ∀ x, x ∉ (flatten ms depth top).map Eqn.target → s.getBindlist x = [] := by
  simp only [generate, bind_ok] at h
  obtain ⟨T, hT, ds, hds, m, hm, s1, h1, s2, h2, s4, h4, h5⟩ := h
  have tok := modTable_ok hT
  obtain ⟨hf, -, -⟩ := tok.getDefinition hm
  obtain ⟨d1, d2, d3⟩ := declared_ok tok hcov depth _ _ _ hds
  have hD : DesignOK ds := by
    refine ⟨fun d hd l hl => ?_, d2, d3⟩
    rcases (d1 d hd).2 l hl with h | h
    · rw [List.mem_singleton] at h; rw [h]
    · exact h
  have hself : (([⟨top, .module, none⟩] : ScopeChain), m.termTypes) ∈ ds := by
    cases depth with
    | zero => simp [declared] at hds
    | succ k =>
      simp only [declared, bind_ok, ok_inj] at hds
      obtain ⟨m', hm', rs, -, rfl⟩ := hds
      rw [hm, ok_inj] at hm'
      subst hm'
      simp
  simp only [BV.push, List.nil_append] at h1
  split at h1
  · cases h1
  · simp only [ok_inj] at h1
    subst h1
    obtain ⟨o, rfl⟩ := copyFrameInfo_eq0 h2
    have hin0 : TermsIn ds ((m.consts.map (fun d => (d.name, d.type))).foldl (addTypeTerm [⟨top, .module, none⟩]) []) := by
      refine typeTerms_in _ _ ?_ _ (by intro k t hk; cases hk)
      intro d hd
      obtain ⟨e, he, rfl⟩ := List.mem_map.mp hd
      exact decl_of hself (consts_mem he)
    obtain ⟨a1, a2, -⟩ := allTerms_ok (D := ds) ds (fun _ h => h) _ hin0
    have hI := start_inv top o fuel loops ⟨a1, fun k ty h => by
      obtain ⟨sc, tys, n, hsc, hn, rfl⟩ := h
      exact a2 _ hsc _ hn⟩
    have o4 := copyFrameInfo_out hI hself h4
    have hfl : flatten ms depth top = flattenMod ms depth [⟨top, .module, none⟩] [] m := by simp only [flatten, hf]
    rw [hfl] at hone ⊢
    have o5 := o4.after (module_does hD tok hcov depth _ top m [] ds hds (fun _ h => h) hf hone (by simp) s4 s o4.inv
      (fun q _ => (o4.keep _ (by simp)).1 rfl) (by simp) h5)
    refine ⟨o5.holds, fun x hx => ?_⟩
    have := (o5.keep x (fun q hq he => hx (List.mem_map.mpr ⟨q, hq, he⟩))).1 rfl
    simp [BV.getBindlist, this, BV.deref]

end Pyv
