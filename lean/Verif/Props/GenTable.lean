import Verif.Props.GenSpec
import Verif.Props.ElabTable
import Verif.Props.GenDecl
/-
  C85: what the table of modules says about the constants and signals of a module.
-/
namespace Pyv

/-- The declarations modulevisitor.py looks at. -/
def ModuleDef.tableNodes (m : ModuleDef) : List DItem :=
  m.params.flatten.map (DItem.param false) ++ m.items.flatMap (fun i => match i with | .decl ds => ds | _ => [])

/-- One of them. -/
def tableVar (v : Variables DItem) (d : DItem) : Variables DItem :=
  match d with
  | .var x => if x.kind = .input ∨ x.kind = .output ∨ x.kind = .inout then v.addSignal x.name d else v
  | .param false p => v.addConst p.name d
  | _ => v

/-- The entry of `n`, which is current, changes its variables by `F`; the others stay. -/
structure UpdV (t t' : ModTable) (n : Str) (F : Variables DItem → Variables DItem) : Prop where
  current : t'.current = t.current
  others : ∀ k, k ≠ n → t'.dict.get? k = t.dict.get? k
  entry : ∀ i, t.dict.get? n = some i → ∃ i', t'.dict.get? n = some i' ∧ i'.definition = i.definition ∧ i'.variables = F i.variables

theorem UpdV.refl (t : ModTable) (n : Str) : UpdV t t n id := ⟨rfl, fun _ _ => rfl, fun i h => ⟨i, h, rfl, rfl⟩⟩

theorem UpdV.trans {t t' t'' : ModTable} {n F G} (h : UpdV t t' n F) (g : UpdV t' t'' n G) : UpdV t t'' n (fun v => G (F v)) := by
  refine ⟨g.current.trans h.current, fun k hk => (g.others k hk).trans (h.others k hk), fun i hi => ?_⟩
  obtain ⟨i1, a1, a2, a3⟩ := h.entry i hi
  obtain ⟨i2, b1, b2, b3⟩ := g.entry i1 a1
  exact ⟨i2, b1, b2.trans a2, by rw [b3, a3]⟩

theorem update_updV {t t' : ModTable} {n : Str} (hc : t.current = some n) {f : DefinitionInfo ModuleDef DItem Str → DefinitionInfo ModuleDef DItem Str}
    (h : DefinitionInfoTable.update t f = .ok t') {F} (hf : ∀ i, (f i).definition = i.definition ∧ (f i).variables = F i.variables) : UpdV t t' n F := by
  simp only [DefinitionInfoTable.update, hc] at h
  split at h
  · cases h
  · rename_i i hi
    cases h
    refine ⟨hc.symm, fun k hk => ?_, fun j hj => ?_⟩
    · simp only [Dict.get?_set, if_neg (Ne.symm hk)]
    · rw [hi] at hj
      cases hj
      exact ⟨f i, by simp only [Dict.get?_set, if_true], hf i⟩

theorem node_updV {t t' : ModTable} {n : Str} (hc : t.current = some n) {d : DItem} (h : t.node d = .ok t') :
    UpdV t t' n (fun v => tableVar v d) := by
  cases d with
  | var v =>
    simp only [ModTable.node] at h
    split at h
    · rename_i hk
      refine update_updV hc h (fun i => ⟨rfl, ?_⟩)
      simp only [tableVar, if_pos hk]
    · rename_i hk
      cases h
      have : (fun w => tableVar w (.var v)) = id := by funext w; simp only [tableVar, if_neg hk]; rfl
      rw [this]; exact .refl t n
  | param loc p =>
    cases loc with
    | true => cases h; exact .refl t n
    | false =>
      simp only [ModTable.node, bind_ok] at h
      obtain ⟨t1, h1, h2⟩ := h
      have u1 : UpdV t t1 n (fun v => v.addConst p.name (.param false p)) := update_updV hc h1 (fun i => ⟨rfl, rfl⟩)
      have u2 : UpdV t1 t' n id := update_updV (u1.current.trans hc) h2 (fun i => ⟨rfl, rfl⟩)
      exact u1.trans u2
  | _ => cases h; exact .refl t n

theorem nodes_updV {n : Str} (ds : List DItem) : ∀ {t t' : ModTable}, t.current = some n → ds.foldlM ModTable.node t = .ok t' →
    UpdV t t' n (fun v => ds.foldl tableVar v) := by
  induction ds with
  | nil => intro t t' _ h; simp only [List.foldlM_nil, py_pure, ok_inj] at h; subst h; exact .refl t n
  | cons d ds ih =>
    intro t t' hc h
    simp only [List.foldlM_cons, bind_ok] at h
    obtain ⟨t1, h1, h2⟩ := h
    have u1 := node_updV hc h1
    exact u1.trans (ih (u1.current.trans hc) h2)

theorem ports_updV {n : Str} (ps : List Str) : ∀ {t t' : ModTable}, t.current = some n → ps.foldlM DefinitionInfoTable.addPort t = .ok t' →
    UpdV t t' n id := by
  induction ps with
  | nil => intro t t' _ h; simp only [List.foldlM_nil, py_pure, ok_inj] at h; subst h; exact .refl t n
  | cons p ps ih =>
    intro t t' hc h
    simp only [List.foldlM_cons, bind_ok] at h
    obtain ⟨t1, h1, h2⟩ := h
    have u1 : UpdV t t1 n id := update_updV hc h1 (fun i => ⟨rfl, rfl⟩)
    exact u1.trans (ih (u1.current.trans hc) h2)

/-- The variables of every entry. -/
def VarsOK (T : ModTable) : Prop :=
  ∀ n i, T.dict.get? n = some i → i.variables = i.definition.tableNodes.foldl tableVar ⟨[], [], []⟩

theorem addModule_vars {T T' : ModTable} (hT : VarsOK T) {m : ModuleDef} (h : T.addModule m = .ok T') : VarsOK T' := by
  simp only [ModTable.addModule, bind_ok] at h
  obtain ⟨t1, h1, t2, h2, ps, hps, t3, h3, h4⟩ := h
  simp only [DefinitionInfoTable.addDefinition] at h1
  split at h1
  · cases h1
  · cases h1
    have u2 := nodes_updV (n := m.name) _ rfl h2
    have u3 := ports_updV (n := m.name) _ (u2.current) h3
    have u4 := nodes_updV (n := m.name) _ (u3.current.trans u2.current) h4
    have u := (u2.trans u3).trans u4
    intro n i hi
    by_cases e : n = m.name
    · subst e
      obtain ⟨i', a1, a2, a3⟩ := u.entry _ (by simp only [Dict.get?_set, if_true]; rfl)
      rw [a1] at hi
      cases hi
      rw [a3, a2]
      simp only [ModuleDef.tableNodes, List.foldl_append]
      rfl
    · have := u.others n e
      rw [hi] at this
      simp only [Dict.get?_set, if_neg (Ne.symm e)] at this
      exact hT n i this.symm

theorem modTable_vars {ms : List ModuleDef} {T : ModTable} (h : modTable ms = .ok T) : VarsOK T := by
  have key : ∀ (ms : List ModuleDef) (T0 T : ModTable), VarsOK T0 → ms.foldlM ModTable.addModule T0 = .ok T → VarsOK T := by
    intro ms
    induction ms with
    | nil => intro T0 T h0 h; simp only [List.foldlM_nil, py_pure, ok_inj] at h; subst h; exact h0
    | cons m ms ih =>
      intro T0 T h0 h
      simp only [List.foldlM_cons, bind_ok] at h
      obtain ⟨T1, h1, h2⟩ := h
      exact ih T1 T (addModule_vars h0 h1) h2
  exact key ms _ T (by intro n i hi; cases hi) h

/-- Only declared names are signals. -/
theorem table_signal (ds : List DItem) : ∀ (v : Variables DItem) n, (ds.foldl tableVar v).signal.has n = true →
    v.signal.has n = true ∨ ∃ d ∈ ds, d.declName = some n := by
  induction ds with
  | nil => intro v n h; exact .inl h
  | cons d ds ih =>
    intro v n h
    rcases ih _ n h with h | ⟨x, hx, e⟩
    · have : v.signal.has n = true ∨ d.declName = some n := by
        cases d with
        | var x =>
          simp only [tableVar] at h
          split at h
          · unfold Variables.addSignal at h
            split at h
            · exact .inl h
            · simp only [VariableTable.has_add, Bool.or_eq_true, decide_eq_true_eq] at h
              rcases h with h | h
              · right; rw [← h]; rfl
              · exact .inl h
          · exact .inl h
        | param loc p =>
          cases loc with
          | true => exact .inl h
          | false => simp only [tableVar, addConst_signal] at h; exact .inl h
        | _ => exact .inl h
      rcases this with h | h
      · exact .inl h
      · exact .inr ⟨d, by simp, h⟩
    · exact .inr ⟨x, by simp [hx], e⟩

/-- The entry of a parameter. -/
def paramEntry (p : Param) : Str × List DItem := (p.name, [DItem.param false p])

/-- The parameters among declarations. -/
def declParams (ds : List DItem) : List Param := ds.filterMap (fun d => match d with | .param false p => some p | _ => none)

theorem table_const (ds : List DItem) : ∀ (v : Variables DItem), (v.const.map (·.1) ++ (declParams ds).map (·.name)).Nodup →
    (ds.foldl tableVar v).const = v.const ++ (declParams ds).map paramEntry := by
  induction ds with
  | nil => intro v _; simp [declParams]
  | cons d ds ih =>
    intro v h
    have same : ∀ {w : Variables DItem}, w.const = v.const → declParams (d :: ds) = declParams ds → (ds.foldl tableVar w).const = v.const ++ (declParams (d :: ds)).map paramEntry := by
      intro w hw hp
      rw [hp] at h ⊢
      rw [← hw] at h ⊢
      exact ih w h
    rw [List.foldl_cons]
    cases d with
    | var x =>
      refine same ?_ rfl
      simp only [tableVar]
      split
      · unfold Variables.addSignal; split <;> rfl
      · rfl
    | param loc p =>
      cases loc with
      | true => exact same rfl rfl
      | false =>
        have hp : declParams (.param false p :: ds) = p :: declParams ds := rfl
        rw [hp] at h ⊢
        have hno : v.const.has p.name = false := by
          rw [Bool.eq_false_iff]
          intro hh
          have := Dict.has_iff_key.mp hh
          rw [List.nodup_append] at h
          exact h.2.2 _ this p.name (by simp) rfl
        have hc : (v.addConst p.name (.param false p)).const = v.const ++ [paramEntry p] := by
          unfold Variables.addConst
          rw [if_neg (by rw [hno]; simp)]
          show VariableTable.add v.const p.name _ = _
          unfold VariableTable.add
          have : Dict.get? v.const p.name = none := by
            rw [Dict.has_eq] at hno
            cases hg : Dict.get? v.const p.name with
            | none => rfl
            | some _ => rw [hg] at hno; simp at hno
          rw [this]
          simp only
          rw [Dict.set_fresh hno]; rfl
        simp only [tableVar]
        rw [ih _ (by rw [hc]; simpa [paramEntry] using h), hc]
        simp
    | _ => exact same rfl rfl

theorem parameters_eq (m : ModuleDef) : declParams m.tableNodes = m.parameters := by
  unfold declParams ModuleDef.tableNodes ModuleDef.parameters
  rw [List.filterMap_append, List.filterMap_map]
  congr 1
  induction m.params.flatten with
  | nil => rfl
  | cons p ps ih => simp only [List.filterMap_cons, Function.comp] at ih ⊢; rw [ih]

theorem paramNames_eq (m : ModuleDef) : m.paramNames = m.parameters.map (·.name) := by
  unfold ModuleDef.paramNames ModuleDef.parameters
  rw [List.map_append, List.map_filterMap]
  congr 1
  apply List.filterMap_congr
  intro d _
  cases d with
  | param loc p => cases loc <;> rfl
  | _ => rfl

/-- What the table says about a module. -/
theorem table_module {ms : List ModuleDef} {T : ModTable} (hT : TableOK ms T) (hV : VarsOK T) {n : Str} {M : ModuleDef}
    (hf : findMod ms n = some M) : DefinitionInfoTable.getDefinition T n = .ok M ∧ DefinitionInfoTable.getParamNames T n = .ok M.paramNames ∧
      (M.paramNames.Nodup → DefinitionInfoTable.getConsts T n = .ok (M.parameters.map paramEntry)) ∧
      ∀ sg, DefinitionInfoTable.getSignals T n = .ok sg → ∀ x, Dict.has sg x = true → ∃ d ∈ M.tableNodes, d.declName = some x := by
  cases hi : T.dict.get? n with
  | none => rw [hT.none n hi] at hf; cases hf
  | some i =>
    obtain ⟨h1, h2, _⟩ := hT.find n i hi
    rw [hf] at h1; simp only [Option.some.injEq] at h1
    have hv := hV n i hi
    rw [← h1] at hv h2
    refine ⟨by simp only [DefinitionInfoTable.getDefinition, hi, h1], by simp only [DefinitionInfoTable.getParamNames, hi, h2], ?_, ?_⟩
    · intro hn
      simp only [DefinitionInfoTable.getConsts, hi, hv]
      rw [table_const _ _ (by
        rw [parameters_eq, ← paramNames_eq]; simpa using hn), parameters_eq]
      simp
    · intro sg hs x hx
      simp only [DefinitionInfoTable.getSignals, hi, hv, ok_inj] at hs
      subst hs
      rcases table_signal _ _ _ hx with h | h
      · simp [Dict.has] at h
      · exact h

end Pyv
