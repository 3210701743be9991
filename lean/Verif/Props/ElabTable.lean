import Verif.Props.ElabAlways
/-
  C75: the table of modules, and the names of a design.
-/
namespace Pyv

/-! ### The table of modules -/

/-- The table holds the modules. -/
structure TableOK (ms : List ModuleDef) (T : ModTable) : Prop where
  find : ∀ n i, T.dict.get? n = some i → findMod ms n = some i.definition ∧ i.params = i.definition.paramNames ∧
    i.ioports = i.definition.portNames
  none : ∀ n, T.dict.get? n = none → findMod ms n = none

/-- The current entry, which is that of `n`, gets parameters and ports; the others stay. -/
structure Upd (t t' : ModTable) (n : Str) (P IO : List Str) : Prop where
  current : t'.current = t.current
  others : ∀ k, k ≠ n → t'.dict.get? k = t.dict.get? k
  entry : ∀ i, t.dict.get? n = some i → ∃ i', t'.dict.get? n = some i' ∧ i'.definition = i.definition ∧ i'.params = i.params ++ P ∧
    i'.ioports = i.ioports ++ IO

theorem Upd.refl (t : ModTable) (n : Str) : Upd t t n [] [] := ⟨rfl, fun _ _ => rfl, fun i h => ⟨i, h, rfl, by simp, by simp⟩⟩

theorem Upd.trans {t t' t'' : ModTable} {n : Str} {P Q I J : List Str} (h : Upd t t' n P I) (g : Upd t' t'' n Q J) :
    Upd t t'' n (P ++ Q) (I ++ J) := by
  refine ⟨g.current.trans h.current, fun k hk => (g.others k hk).trans (h.others k hk), fun i hi => ?_⟩
  obtain ⟨i1, a1, a2, a3, a4⟩ := h.entry i hi
  obtain ⟨i2, b1, b2, b3, b4⟩ := g.entry i1 a1
  exact ⟨i2, b1, b2.trans a2, by rw [b3, a3, List.append_assoc], by rw [b4, a4, List.append_assoc]⟩

theorem update_upd {t t' : ModTable} {n : Str} (hc : t.current = some n) {f : DefinitionInfo ModuleDef DItem Str → DefinitionInfo ModuleDef DItem Str}
    (h : DefinitionInfoTable.update t f = .ok t') {P IO : List Str}
    (hf : ∀ i, (f i).definition = i.definition ∧ (f i).params = i.params ++ P ∧ (f i).ioports = i.ioports ++ IO) : Upd t t' n P IO := by
  simp only [DefinitionInfoTable.update, hc] at h
  split at h
  · cases h
  · rename_i i hi
    cases h
    refine ⟨hc.symm, fun k hk => ?_, fun j hj => ?_⟩
    · simp only [Dict.get?_set, if_neg (Ne.symm hk)]
    · rw [hi] at hj
      cases hj
      exact ⟨f i, by simp only [Dict.get?_set, if_true], hf i⟩

theorem node_upd {t t' : ModTable} {n : Str} (hc : t.current = some n) {d : DItem} (h : t.node d = .ok t') :
    Upd t t' n (match d with | .param false p => [p.name] | _ => []) [] := by
  cases d with
  | var v =>
    simp only [ModTable.node] at h
    split at h
    · exact update_upd hc h (fun i => ⟨rfl, by simp, by simp⟩)
    · cases h; exact .refl t n
  | param loc p =>
    cases loc with
    | true => cases h; exact .refl t n
    | false =>
      simp only [ModTable.node, bind_ok] at h
      obtain ⟨t1, h1, h2⟩ := h
      have u1 : Upd t t1 n [] [] := update_upd hc h1 (fun i => ⟨rfl, by simp, by simp⟩)
      have u2 : Upd t1 t' n [p.name] [] := update_upd (u1.current.trans hc) h2 (fun i => ⟨rfl, rfl, by simp⟩)
      exact u1.trans u2
  | _ => cases h; exact .refl t n

theorem nodes_upd {n : Str} (ds : List DItem) : ∀ {t t' : ModTable}, t.current = some n → ds.foldlM ModTable.node t = .ok t' →
    Upd t t' n (ds.filterMap (fun d => match d with | .param false p => some p.name | _ => none)) [] := by
  induction ds with
  | nil => intro t t' _ h; simp only [List.foldlM_nil, py_pure, ok_inj] at h; subst h; exact .refl t n
  | cons d ds ih =>
    intro t t' hc h
    simp only [List.foldlM_cons, bind_ok] at h
    obtain ⟨t1, h1, h2⟩ := h
    have u1 := node_upd hc h1
    have u2 := ih (u1.current.trans hc) h2
    have := u1.trans u2
    cases d with
    | param loc p => cases loc <;> exact this
    | _ => exact this

theorem ports_upd {n : Str} (ps : List Str) : ∀ {t t' : ModTable}, t.current = some n → ps.foldlM DefinitionInfoTable.addPort t = .ok t' →
    Upd t t' n [] ps := by
  induction ps with
  | nil => intro t t' _ h; simp only [List.foldlM_nil, py_pure, ok_inj] at h; subst h; exact .refl t n
  | cons p ps ih =>
    intro t t' hc h
    simp only [List.foldlM_cons, bind_ok] at h
    obtain ⟨t1, h1, h2⟩ := h
    have u1 := update_upd hc h1 (P := []) (IO := [p]) (fun i => ⟨rfl, by simp, rfl⟩)
    exact u1.trans (ih (u1.current.trans hc) h2)

theorem ionames_eq (ps : List PortD) : ∀ ns, ps.mapM PortD.ioname = .ok ns → ns = ps.filterMap PortD.pname := by
  induction ps with
  | nil => intro ns h; simp only [List.mapM_nil, py_pure, ok_inj] at h; subst h; rfl
  | cons p ps ih =>
    intro ns h
    simp only [List.mapM_cons, bind_ok, py_pure, ok_inj] at h
    obtain ⟨a, h1, as, h2, rfl⟩ := h
    rw [ih as h2]
    cases p <;> simp only [PortD.ioname, ok_inj, reduceCtorEq] at h1 <;> simp [PortD.pname, h1]

theorem addModule_ok {ms : List ModuleDef} {T T' : ModTable} (hT : TableOK ms T) {m : ModuleDef} (h : T.addModule m = .ok T') :
    TableOK (ms ++ [m]) T' := by
  simp only [ModTable.addModule, bind_ok] at h
  obtain ⟨t1, h1, t2, h2, ps, hps, t3, h3, h4⟩ := h
  simp only [DefinitionInfoTable.addDefinition] at h1
  split at h1
  · cases h1
  · rename_i hno
    cases h1
    have hnone : T.dict.get? m.name = Option.none := by
      rw [Dict.has_eq] at hno
      simpa using hno
    have u2 := nodes_upd (n := m.name) _ rfl h2
    have u3 := ports_upd (n := m.name) _ (u2.current) h3
    have u4 := nodes_upd (n := m.name) _ (u3.current.trans u2.current) h4
    have u := (u2.trans u3).trans u4
    have hpn : ps = m.portNames := ionames_eq _ _ hps
    have hfm : ∀ k, findMod (ms ++ [m]) k = (findMod ms k).or (if m.name = k then some m else Option.none) := by
      intro k
      simp only [findMod, List.find?_append, List.find?_cons, List.find?_nil]
      by_cases e : m.name = k <;> simp [e]
    constructor
    · intro n i hi
      by_cases e : n = m.name
      · subst e
        obtain ⟨i', a1, a2, a3, a4⟩ := u.entry _ (by simp only [Dict.get?_set, if_true]; rfl)
        rw [a1] at hi
        cases hi
        rw [hfm, hT.none _ hnone]
        simp only [if_true, Option.or_some, Option.getD_none]
        refine ⟨by rw [a2], ?_, ?_⟩
        · rw [a2, a3]
          simp only [List.nil_append, List.append_nil, ModuleDef.paramNames, List.filterMap_map]
          congr 1
          clear u u2 h2
          induction m.params.flatten with
          | nil => rfl
          | cons p ps ih => simp only [List.filterMap_cons, List.map_cons] at ih ⊢; rw [ih]; rfl
        · rw [a2, a4]
          simp [hpn]
      · have := u.others n e
        rw [hi] at this
        simp only [Dict.get?_set, if_neg (Ne.symm e)] at this
        obtain ⟨b1, b2, b3⟩ := hT.find n i this.symm
        refine ⟨?_, b2, b3⟩
        rw [hfm, b1]
        rfl
    · intro n hn
      by_cases e : n = m.name
      · subst e
        obtain ⟨i', a1, _⟩ := u.entry _ (by simp only [Dict.get?_set, if_true]; rfl)
        rw [a1] at hn
        cases hn
      · have := u.others n e
        rw [hn] at this
        simp only [Dict.get?_set, if_neg (Ne.symm e)] at this
        rw [hfm, hT.none n this.symm, if_neg (Ne.symm e)]
        rfl

theorem modTable_ok {ms : List ModuleDef} {T : ModTable} (h : modTable ms = .ok T) : TableOK ms T := by
  have key : ∀ (ms pre : List ModuleDef) (T0 T : ModTable), TableOK pre T0 → ms.foldlM ModTable.addModule T0 = .ok T → TableOK (pre ++ ms) T := by
    intro ms
    induction ms with
    | nil => intro pre T0 T h0 h; simp only [List.foldlM_nil, py_pure, ok_inj] at h; subst h; simpa using h0
    | cons m ms ih =>
      intro pre T0 T h0 h
      simp only [List.foldlM_cons, bind_ok] at h
      obtain ⟨T1, h1, h2⟩ := h
      have := ih (pre ++ [m]) T1 T (addModule_ok h0 h1) h2
      simpa using this
  simpa using key ms [] _ T ⟨(by intro n i hi; cases hi), (by intro n _; rfl)⟩ h

section
variable {ms : List ModuleDef} {T : ModTable}

theorem TableOK.getDefinition (hT : TableOK ms T) {n : Str} {m : ModuleDef} (h : DefinitionInfoTable.getDefinition T n = .ok m) :
    findMod ms n = some m ∧ DefinitionInfoTable.getParamNames T n = .ok m.paramNames ∧ DefinitionInfoTable.getIOPorts T n = .ok m.portNames := by
  unfold DefinitionInfoTable.getDefinition at h
  split at h
  · cases h
  · rename_i i hi
    cases h
    obtain ⟨h1, h2, h3⟩ := hT.find n i hi
    exact ⟨h1, by simp only [DefinitionInfoTable.getParamNames, hi, h2], by simp only [DefinitionInfoTable.getIOPorts, hi, h3]⟩

theorem findMod_mem {n : Str} {m : ModuleDef} (h : findMod ms n = some m) : m ∈ ms := List.mem_of_find?_eq_some h

/-! ### The names of a design -/

/-- The scopes below `sc`, each with one list of names, the module scopes first; no genvars. -/
theorem declared_ok (hT : TableOK ms T) (hc : ∀ m ∈ ms, m.covered ms = true) (k : Nat) : ∀ sc name ds,
    declared T k sc name = .ok ds →
    (∀ d ∈ ds, sc <+: d.1 ∧ ∀ l ∈ d.1, l ∈ sc ∨ l.type = .module) ∧
    (∀ d ∈ ds, ∀ e ∈ ds, d.1 = e.1 → d = e) ∧
    (∀ d ∈ ds, ∀ n ty, (n, ty) ∈ d.2 → ty ≠ .genvar) := by
  induction k with
  | zero => intro sc name ds h; simp [declared] at h
  | succ k ih =>
    intro sc name ds h
    simp only [declared, bind_ok, ok_inj] at h
    obtain ⟨m, hm, rs, hrs, rfl⟩ := h
    obtain ⟨hf, -, -⟩ := hT.getDefinition hm
    have hcov := hc m (findMod_mem hf)
    simp only [ModuleDef.covered, Bool.and_eq_true, decide_eq_true_eq, List.all_eq_true] at hcov
    obtain ⟨⟨hnodes, hitems⟩, hnd⟩ := hcov
    -- the instances
    have key : ∀ (is : List (Str × Inst)) (rs : List Decls), is.mapM (fun i =>
        if i.2.array.isSome then .error .unmodelled
        else declared T k (sc ++ [⟨i.2.name, .module, none⟩]) i.1) = .ok rs → (is.map (·.2.name)).Nodup →
        (∀ d ∈ rs.flatten, (∃ i ∈ is, sc ++ [⟨i.2.name, .module, none⟩] <+: d.1) ∧ ∀ l ∈ d.1, l ∈ sc ∨ l.type = .module) ∧
        (∀ d ∈ rs.flatten, ∀ e ∈ rs.flatten, d.1 = e.1 → d = e) ∧
        (∀ d ∈ rs.flatten, ∀ n ty, (n, ty) ∈ d.2 → ty ≠ .genvar) := by
      intro is
      induction is with
      | nil => intro rs h _; simp only [List.mapM_nil, py_pure, ok_inj] at h; subst h; simp
      | cons i is ihs =>
        intro rs h hnd
        simp only [List.mapM_cons, bind_ok, py_pure, ok_inj] at h
        obtain ⟨a, h1, as, h2, rfl⟩ := h
        split at h1
        · cases h1
        · simp only [List.map_cons, List.nodup_cons] at hnd
          obtain ⟨p1, p2, p3⟩ := ih _ _ _ h1
          obtain ⟨q1, q2, q3⟩ := ihs as h2 hnd.2
          simp only [List.flatten_cons, List.mem_append]
          have hne : ∀ d ∈ a, ∀ e ∈ as.flatten, d.1 ≠ e.1 := by
            intro d hd e he heq
            obtain ⟨j, hj, hpj⟩ := (q1 e he).1
            have hpi := (p1 d hd).1
            rw [heq] at hpi
            have hl : (sc ++ [(⟨i.2.name, .module, none⟩ : ScopeLabel)]).length = (sc ++ [(⟨j.2.name, .module, none⟩ : ScopeLabel)]).length := by simp
            have := (List.prefix_of_prefix_length_le hpi hpj (le_of_eq hl)).eq_of_length hl
            have hn : i.2.name = j.2.name := by simpa using this
            exact hnd.1 (List.mem_map.mpr ⟨j, hj, hn.symm⟩)
          refine ⟨?_, ?_, ?_⟩
          · rintro d (hd | hd)
            · refine ⟨⟨i, by simp, (p1 d hd).1⟩, fun l hl => ?_⟩
              rcases (p1 d hd).2 l hl with h | h
              · simp only [List.mem_append, List.mem_singleton] at h
                rcases h with h | h
                · exact .inl h
                · right; rw [h]
              · exact .inr h
            · obtain ⟨⟨j, hj, hp⟩, h2⟩ := q1 d hd
              exact ⟨⟨j, by simp [hj], hp⟩, h2⟩
          · rintro d (hd | hd) e (he | he) heq
            · exact p2 d hd e he heq
            · exact absurd heq (hne d hd e he)
            · exact absurd heq.symm (hne e he d hd)
            · exact q2 d hd e he heq
          · rintro d (hd | hd)
            · exact p3 d hd
            · exact q3 d hd
    obtain ⟨r1, r2, r3⟩ := key _ _ hrs hnd
    simp only [List.mem_cons]
    have hself : ∀ e ∈ rs.flatten, sc ≠ e.1 := by
      intro e he heq
      obtain ⟨⟨i, _, hp⟩, -⟩ := r1 e he
      rw [← heq] at hp
      exact not_prefix_snoc (List.prefix_refl _) hp
    refine ⟨?_, ?_, ?_⟩
    · rintro d (rfl | hd)
      · exact ⟨List.prefix_refl _, fun l hl => .inl hl⟩
      · obtain ⟨⟨i, _, hp⟩, h2⟩ := r1 d hd
        exact ⟨(List.prefix_append _ _).trans hp, h2⟩
    · rintro d (rfl | hd) e (rfl | he) heq
      · rfl
      · exact absurd heq (hself e he)
      · exact absurd heq.symm (hself d hd)
      · exact r2 d hd e he heq
    · rintro d (rfl | hd) n ty hn
      · obtain ⟨i, hi, ht⟩ := List.mem_filterMap.mp hn
        have := hnodes i hi
        rintro rfl
        cases i with
        | genvar n => simp [DItem.covered] at this
        | var v => simp only [DItem.term, Option.some.injEq, Prod.mk.injEq] at ht; cases hk : v.kind <;> simp [hk, SigKind.termType] at ht
        | param loc p => cases loc <;> simp [DItem.term] at ht
        | _ => simp [DItem.term] at ht
      · exact r3 d hd n ty hn

end

end Pyv
