import Verif.Props.GenItem
import Verif.Props.GenTable
/-
  C85: the scope of an instance.
-/
namespace Pyv

theorem Dict.set_last {κ α : Type} [DecidableEq κ] {k : κ} {v w : α} : ∀ {d : Dict κ α}, d.has k = false →
    Dict.set (d ++ [(k, v)]) k w = d ++ [(k, w)]
  | [], _ => by simp [Dict.set]
  | (a, b) :: d, h => by
    have h' : a ≠ k ∧ Dict.has d k = false := by simpa [Dict.has] using h
    simp only [List.cons_append, Dict.set]
    rw [if_neg h'.1, Dict.set_last h'.2]

/-- Between the creation of the frame `c1` of an instance and the visit of its module: only the constants of the frame change. -/
structure InstPhase (s : SV) (c1 : ScopeChain) (f1 : SFrame) (t : SV) (d : Dict Str Int) : Prop where
  cur : t.current = c1
  view : t.view = s.view ++ [(c1, f1)]
  fdef : t.fdef = s.fdef
  tdef : t.tdef = s.tdef
  vals : ∀ c n, c ≠ c1 → t.vals.get? (c ++ [sigName n]) = s.vals.get? (c ++ [sigName n])
  dict : DictAt true t.vals c1 f1 d
  mod : f1.isModule = true
  gen : f1.isGenerate = false
  alw : f1.isAlways = false
  new : s.view.has c1 = false

theorem InstPhase.get {s t : SV} {c1 f1 d} (h : InstPhase s c1 f1 t d) : t.view.get? c1 = some f1 := by
  rw [h.view, Dict.get?_append_right h.new]
  simp [Dict.get?_cons]

theorem InstPhase.envAt {s t : SV} {c1 f1 d} (h : InstPhase s c1 f1 t d) : EnvAt true t.view t.vals c1 [d] := .top h.get h.mod h.dict

theorem InstPhase.ready {s t : SV} {c1 f1 d} (h : InstPhase s c1 f1 t d) (hfd : s.fdef = false) (htd : s.tdef = false)
    (hf : ∀ c n, s.view.has c = false → s.vals.get? (c ++ [sigName n]) = none) : t.Ready false [d] := by
  refine ⟨⟨f1, by rw [h.cur]; exact h.get, h.gen, h.alw⟩, h.fdef.trans hfd, h.tdef.trans htd, by rw [h.cur]; exact h.envAt, ?_⟩
  intro c n hc
  rw [h.view, Dict.has_append] at hc
  simp only [Bool.or_eq_false_iff] at hc
  have hne : c ≠ c1 := by
    rintro rfl
    simp [Dict.has] at hc
  rw [h.vals c n hne]
  exact hf c n hc.1

/-- Only the terms of constants changed. -/
def TermsOnly (t t' : SV) : Prop := t' = { t with octx := { t.octx with terms := t'.octx.terms } }

theorem TermsOnly.phase {s t t' : SV} {c1 f1 d} (h : InstPhase s c1 f1 t d) (e : TermsOnly t t') : InstPhase s c1 f1 t' d := by
  unfold TermsOnly at e
  have hk : t'.vals = t.vals := by rw [e]
  have hv : t'.view = t.view := by rw [e]; rfl
  refine ⟨by rw [e]; exact h.cur, by rw [hv]; exact h.view, by rw [e]; exact h.fdef, by rw [e]; exact h.tdef, ?_, ?_, h.mod, h.gen, h.alw, h.new⟩
  · rw [hk]; exact h.vals
  · rw [hk]; exact h.dict

theorem foldl_terms {ds : List ConstDef} {F : SV → ConstDef → Py SV} (hF : ∀ s d s', F s d = .ok s' → TermsOnly s s') :
    ∀ (t t' : SV), ds.foldlM F t = .ok t' → TermsOnly t t' := by
  induction ds with
  | nil => intro t t' h; simp only [List.foldlM_nil, py_pure, ok_inj] at h; subst h; rfl
  | cons d ds ih =>
    intro t t' h
    rw [List.foldlM_cons] at h
    obtain ⟨t1, h1, h⟩ := bind_ok.mp h
    have a := hF _ _ _ h1
    have b := ih t1 t' h
    unfold TermsOnly at a b ⊢
    rw [b, a]

theorem constTerms_only {t t' : SV} (h : t.constTerms = .ok t') : TermsOnly t t' := by
  unfold SV.constTerms at h
  obtain ⟨ds, _, h⟩ := bind_ok.mp h
  refine foldl_terms ?_ t t' h
  intro s d s' h
  obtain ⟨x, _, h⟩ := bind_ok.mp h
  rw [ok_inj] at h; subst h; rfl

theorem simpleTerms_only {t t' : SV} (h : t.simpleTerms = .ok t') : TermsOnly t t' := by
  unfold SV.simpleTerms at h
  obtain ⟨ds, _, h⟩ := bind_ok.mp h
  refine foldl_terms ?_ t t' h
  intro s d s' h
  split at h
  · simp at h
  · obtain ⟨x, _, h⟩ := bind_ok.mp h
    rw [ok_inj] at h; subst h; rfl

/-- A constant of the frame gets a value. -/
theorem InstPhase.set {s t : SV} {c1 f1 d} (h : InstPhase s c1 f1 t d) {n} (hn : f1.vars.const.has n = true) (v : Int) (w : Int) :
    InstPhase s c1 f1 (t.setConst (c1 ++ [sigName n]) (.evi v (some w))) (d.set n v) := by
  have hk : (t.setConst (c1 ++ [sigName n]) (.evi v (some w))).vals = Dict.set t.vals (c1 ++ [sigName n]) (.evi v (some w)) := rfl
  refine ⟨h.cur, h.view, h.fdef, h.tdef, ?_, ⟨?_, ?_⟩, h.mod, h.gen, h.alw, h.new⟩
  · intro c m hc
    rw [hk, Dict.get?_set, if_neg (by intro e; exact hc (List.append_inj_left' e rfl).symm)]
    exact h.vals c m hc
  · intro m u hm
    rw [Dict.get?_set] at hm
    rw [hk, Dict.get?_set]
    by_cases e : n = m
    · subst e
      rw [if_pos rfl, Option.some.injEq] at hm
      subst hm
      exact ⟨hn, w, by rw [if_pos rfl]⟩
    · rw [if_neg e] at hm
      rw [if_neg (fun e' => e (by have := List.append_inj_right' e' rfl; simpa using this))]
      exact h.dict.some_ m u hm
  · intro m hm
    rw [Dict.get?_set] at hm
    rw [hk, Dict.get?_set]
    by_cases e : n = m
    · rw [if_pos e] at hm; simp at hm
    · rw [if_neg e] at hm
      rw [if_neg (fun e' => e (by have := List.append_inj_right' e' rfl; simpa using this))]
      exact h.dict.none_ m hm

theorem InstPhase.search {s t : SV} {c1 f1 d} (h : InstPhase s c1 f1 t d) {n c} (hn : f1.vars.const.has n = true)
    (hc : t.searchConst t.current n = .ok c) : c = c1 ++ [sigName n] := by
  unfold SV.searchConst at hc
  obtain ⟨r, hr, hc⟩ := bind_ok.mp hc
  rw [h.cur] at hr
  simp only [SV.searchUp] at hr
  obtain ⟨f, hf, hr⟩ := bind_ok.mp hr
  have e := SV.view_frame h.get hf
  have hh : f.vars.const.has n = true := by rw [← hn, ← e]; rfl
  rw [if_pos hh, ok_inj] at hr
  subst hr
  simp only [ok_inj] at hc
  exact hc.symm

/-- The scopes around the instance are unchanged. -/
theorem InstPhase.outer {s t : SV} {g σ l f1 d} (h : InstPhase s (s.current ++ [l]) f1 t d) (hr : s.Ready g σ) :
    EnvAt true t.view t.vals s.current σ := by
  refine hr.env.congr ?_ ?_
  · intro x hx
    rw [h.view, Dict.get?_append (hr.env.has x hx)]
  · intro x n hx
    refine h.vals x n ?_
    rintro rfl
    exact prefix_append_ne (by simp) hx.1

/-- Arguments for parameters. -/
theorem params_phase {s : SV} {g σ l f1 names} (hr : s.Ready g σ) (hn : ∀ n ∈ names, f1.vars.const.has n = true) :
    ∀ (ps : List PArg) (k : Nat) (t t' : SV) d d', InstPhase s (s.current ++ [l]) f1 t d → Overrides σ names k ps d d' →
      (ps.zipIdx k).foldlM (SV.instParam names s.current) t = .ok t' → InstPhase s (s.current ++ [l]) f1 t' d' := by
  intro ps
  induction ps with
  | nil =>
    intro k t t' d d' hp ho h
    cases ho
    simp only [List.zipIdx_nil, List.foldlM_nil, py_pure, ok_inj] at h; subst h; exact hp
  | cons a as ih =>
    intro k t t' d d' hp ho h
    rw [List.zipIdx_cons, List.foldlM_cons] at h
    obtain ⟨t1, h1, h⟩ := bind_ok.mp h
    have key : ∀ {n e v}, (a.name = some n ∨ a.name = none ∧ names[k]? = some n) → n ∈ names → a.arg = some e → ConstVal σ e v →
        InstPhase s (s.current ++ [l]) f1 t1 (d.set n v) := by
      intro n e v e1 e2 e3 e4
      unfold SV.instParam at h1
      simp only at h1
      obtain ⟨n', hn', h1⟩ := bind_ok.mp h1
      have : n = n' := by
        rcases e1 with e1 | ⟨e1, e1'⟩
        · simp only [e1, ok_inj] at hn'; exact hn'
        · simp only [e1, e1', ok_inj] at hn'; exact hn'
      subst this
      rw [if_pos e2, e3] at h1
      simp only at h1
      obtain ⟨x, hx, h1⟩ := bind_ok.mp h1
      obtain ⟨c, hc, h1⟩ := bind_ok.mp h1
      rw [ok_inj] at h1
      obtain ⟨w, rfl⟩ := SV.eval_val (hp.outer hr).weaken e4 hx
      have := hp.search (hn n e2) hc
      subst this
      rw [← h1]
      exact hp.set (hn n e2) v w
    cases ho with
    | named e1 e2 e3 e4 ho => exact ih (k + 1) t1 t' _ _ (key (.inl e1) e2 e3 e4) ho h
    | placed e1 e2 e3 e4 ho =>
      exact ih (k + 1) t1 t' _ _ (key (.inr ⟨e1, e2⟩) (List.mem_of_getElem? e2) e3 e4) ho h

/-- A parameter as a constant of the frame. -/
def Param.constDef (p : Param) : ConstDef := ⟨p.name, .parameter, p.width, some p.value⟩

theorem pass_phase {s : SV} {c1 f1} : ∀ (ps : List Param) (t : SV) r d d', (∀ p ∈ ps, f1.vars.const.has p.name = true) →
    InstPhase s c1 f1 t d → Defaults d ps d' → SV.constPass c1 (ps.map Param.constDef) t = .ok r → r.2 = true ∧ InstPhase s c1 f1 r.1 d' := by
  intro ps
  induction ps with
  | nil =>
    intro t r d d' _ hp hd h
    cases hd
    simp only [List.map_nil, SV.constPass, ok_inj] at h; subst h; exact ⟨rfl, hp⟩
  | cons p ps ih =>
    intro t r d d' hn hp hd h
    have hn' : ∀ q ∈ ps, f1.vars.const.has q.name = true := fun q hq => hn q (by simp [hq])
    simp only [List.map_cons, SV.constPass, Param.constDef] at h
    cases hd with
    | given e hd =>
      obtain ⟨_, w, hw⟩ := hp.dict.some_ _ _ e
      rw [if_pos (Dict.has_of_get? hw)] at h
      exact ih t r d d' hn' hp hd h
    | default e hv hd =>
      have := (hp.dict.none_ _ e).1
      rw [if_neg (by rw [Dict.has_eq, this]; simp)] at h
      obtain ⟨x, hx, h⟩ := bind_ok.mp h
      obtain ⟨w, rfl⟩ := SV.eval_val hp.envAt.weaken hv hx
      rw [if_pos (show (DF.evi _ _).isEv = true from rfl)] at h
      exact ih _ r _ d' hn' (hp.set (hn p (by simp)) _ w) hd h

theorem loop_phase {s t t' : SV} {c1 f1 ps d d' k} (hn : ∀ p ∈ ps, f1.vars.const.has p.name = true) (hp : InstPhase s c1 f1 t d)
    (hd : Defaults d ps d') (h : SV.constLoop c1 (ps.map Param.constDef) k t = .ok t') : InstPhase s c1 f1 t' d' := by
  cases k with
  | zero => simp [SV.constLoop] at h
  | succ k =>
    simp only [SV.constLoop] at h
    obtain ⟨r, hr, h⟩ := bind_ok.mp h
    obtain ⟨a, b⟩ := pass_phase ps t r d d' hn hp hd hr
    rw [if_pos a, ok_inj] at h
    rw [← h]; exact b

/-- The new frame of an instance. -/
theorem stack_phase {s s1 : SV} {T : ModTable} {n m cs} (hf : ∀ c n, s.view.has c = false → s.vals.get? (c ++ [sigName n]) = none)
    (hcs : DefinitionInfoTable.getConsts T m = .ok cs) (h : s.stackInstance T n m = .ok s1) :
    ∃ sg f1, DefinitionInfoTable.getSignals T m = .ok sg ∧ f1.vars.const = cs ∧ f1.vars.signal = sg ∧
      InstPhase s (s.current ++ [⟨n, .module, none⟩]) f1 s1 [] := by
  unfold SV.stackInstance at h
  obtain ⟨t, ht, h⟩ := bind_ok.mp h
  obtain ⟨sg, hsg, h⟩ := bind_ok.mp h
  obtain ⟨cs', hcs', h⟩ := bind_ok.mp h
  rw [hcs] at hcs'; rw [ok_inj] at hcs'; subst hcs'
  obtain ⟨hn, hv, hs⟩ := addFrame_ok ht
  obtain ⟨f, hf1, hv1, hs1⟩ := modify_vars (h := fun v => { v with signal := sg, const := cs }) h
  have hc : t.current = s.current ++ [⟨n, .module, none⟩] := by rw [hs]
  have hfe : f = { previous := s.current, isModule := true } := by
    rw [hc, hv, Dict.get?_append_right hn] at hf1
    simp only [Dict.get?_cons, if_true, Option.some.injEq] at hf1
    rw [← hf1]; rfl
  have hk : s1.vals = s.vals := by rw [hs1, hs]
  refine ⟨sg, { f with vars := { f.vars with signal := sg, const := cs } }, hsg, rfl, rfl, ?_⟩
  refine ⟨by rw [hs1]; exact hc, ?_, by rw [hs1, hs], by rw [hs1, hs], fun c m _ => by rw [hk], ⟨?_, ?_⟩, by rw [hfe], by rw [hfe], by rw [hfe], hn⟩
  · rw [hv1, hc, hv]
    generalize (s.current ++ [⟨n, .module, none⟩] : ScopeChain) = c1 at hn ⊢
    generalize ({ f with vars := { f.vars with signal := sg, const := cs } } : SFrame) = f'
    generalize (SFrame.core _ : SFrame) = f''
    exact Dict.set_last hn
  · intro m v hm; simp [Dict.get?_nil] at hm
  · intro m _
    refine ⟨by rw [hk]; exact hf _ _ hn, ?_⟩
    intro _ hm
    rw [hfe] at hm
    simp at hm

/-- The declarations of the items of a module are among the declarations of its scope. -/
theorem Opens.decls {ms ok g} : ∀ {is : List MItem} {σ σ' ds sc}, Opens ms ok g σ (.items is) σ' ds sc → ∀ xs, .decl xs ∈ is → ∀ x ∈ xs, x ∈ ds := by
  intro is
  induction is with
  | nil => intro _ _ _ _ _ xs h; simp at h
  | cons i is ih =>
    intro σ σ' ds sc h xs hm x hx
    cases h with
    | decl _ h =>
      rcases List.mem_cons.mp hm with e | hm
      · cases e; simp [hx]
      · exact List.mem_append_right _ (ih h xs hm x hx)
    | assign h => rcases List.mem_cons.mp hm with e | hm; · cases e
                  exact ih h xs hm x hx
    | initial h => rcases List.mem_cons.mp hm with e | hm; · cases e
                   exact ih h xs hm x hx
    | always _ h => rcases List.mem_cons.mp hm with e | hm; · cases e
                    exact ih h xs hm x hx
    | insts _ _ h => rcases List.mem_cons.mp hm with e | hm; · cases e
                     exact ih h xs hm x hx
    | gen _ h => rcases List.mem_cons.mp hm with e | hm; · cases e
                 exact ih h xs hm x hx
    | gifTrue _ _ _ _ h => rcases List.mem_cons.mp hm with e | hm; · cases e
                           exact ih h xs hm x hx
    | gifFalse _ h => rcases List.mem_cons.mp hm with e | hm; · cases e
                      exact ih h xs hm x hx
    | gifeTrue _ _ _ _ h => rcases List.mem_cons.mp hm with e | hm; · cases e
                            exact ih h xs hm x hx
    | gifeFalse _ _ h => rcases List.mem_cons.mp hm with e | hm; · cases e
                         exact ih h xs hm x hx
    | gblock _ h => rcases List.mem_cons.mp hm with e | hm; · cases e
                    exact ih h xs hm x hx
    | gfor _ _ _ h => rcases List.mem_cons.mp hm with e | hm; · cases e
                      exact ih h xs hm x hx

theorem Opens.tableNodes {ms ok g σ σ' ds sc} {M : ModuleDef} (h : Opens ms ok g σ (.items M.all) σ' ds sc) : ∀ x ∈ M.tableNodes, x ∈ ds := by
  intro x hx
  unfold ModuleDef.tableNodes at hx
  rcases List.mem_append.mp hx with hx | hx
  · exact h.decls M.head (by simp [ModuleDef.all]) x (by unfold ModuleDef.head; exact List.mem_append_left _ hx)
  · obtain ⟨i, hi, hx⟩ := List.mem_flatMap.mp hx
    cases i with
    | decl xs => exact h.decls xs (by simp [ModuleDef.all, hi]) x hx
    | _ => simp at hx

theorem param_node {M : ModuleDef} {p} (h : p ∈ M.parameters) : DItem.param false p ∈ M.tableNodes := by
  unfold ModuleDef.parameters at h
  unfold ModuleDef.tableNodes
  rcases List.mem_append.mp h with h | h
  · exact List.mem_append_left _ (List.mem_map_of_mem h)
  · obtain ⟨d, hd, e⟩ := List.mem_filterMap.mp h
    refine List.mem_append_right _ ?_
    split at e
    · simp only [Option.some.injEq] at e; subst e; exact hd
    · simp at e

/-- The definition of a module is its items with the declarations of its head. -/
theorem visitModule_all {T : ModTable} {k s s' n M} (hd : DefinitionInfoTable.getDefinition T n = .ok M) (h : SV.visitModule T (k + 1) s n = .ok s') :
    MItem.scanList T (SV.visitModule T k) M.all s = .ok s' := by
  simp only [SV.visitModule, hd, ok_bind] at h
  simp only [ModuleDef.all, MItem.scanList, MItem.scan, ModuleDef.head, List.foldlM_append]
  obtain ⟨s1, h1, h⟩ := bind_ok.mp h
  obtain ⟨s2, h2, h⟩ := bind_ok.mp h
  refine bind_ok.mpr ⟨s2, bind_ok.mpr ⟨s1, h1, h2⟩, h⟩

/-- An instance of a module. -/
theorem instance_grew {ms : List ModuleDef} {T : ModTable} (hT : TableOK ms T) (hV : VarsOK T) {s s' : SV} {g σ m ps n M ov d0 d ds sc k}
    (hr : s.Ready g σ) (hm : primitiveOf m = none) (hM : findMod ms m = some M) (hnd : M.paramNames.Nodup)
    (ho : Overrides σ M.paramNames 0 ps [] ov) (hd : Defaults ov M.parameters d0)
    (hO : Opens ms (0 ≤ ·) false [d0] (.items M.all) [d] ds sc)
    (hb : ∀ k t t', t.Ready false [d0] → MItem.scanList T (SV.visitModule T k) M.all t = .ok t' → Grew t t' [d0] [d] ds sc)
    (h : s.visitInstBody T (SV.visitModule T k) m ps n = .ok s') : Grew s s' σ σ [] (scopeTree (.inst n) ds d sc) := by
  obtain ⟨hdef, hpn, hcs, hsg⟩ := table_module hT hV hM
  have hcs := hcs hnd
  unfold SV.visitInstBody at h
  rw [hm] at h
  simp only at h
  split at h
  · simp at h
  obtain ⟨s1, h1, h⟩ := bind_ok.mp h
  obtain ⟨s2, h2, h⟩ := bind_ok.mp h
  obtain ⟨names, hn, h⟩ := bind_ok.mp h
  obtain ⟨s3, h3, h⟩ := bind_ok.mp h
  obtain ⟨cds, hc, h⟩ := bind_ok.mp h
  obtain ⟨s4, h4, h⟩ := bind_ok.mp h
  obtain ⟨s5, h5, h⟩ := bind_ok.mp h
  obtain ⟨s6, h6, h7⟩ := bind_ok.mp h
  clear h
  rw [ok_inj] at h7
  rw [hpn, ok_inj] at hn
  subst hn
  obtain ⟨sg, f1, hsg1, hfc, hfs, P1⟩ := stack_phase hr.fresh hcs h1
  have P2 := (simpleTerms_only h2).phase P1
  have hmem : ∀ x, f1.vars.const.has x = true ↔ x ∈ M.parameters.map (·.name) := by
    intro x
    rw [hfc]
    show Dict.has _ _ = true ↔ _
    rw [Dict.has_iff_key, List.map_map]
    rfl
  have P3 := params_phase hr (fun x hx => by rw [hmem, ← paramNames_eq]; exact hx) ps 0 s2 s3 [] ov P2 ho h3
  have hcd : cds = M.parameters.map Param.constDef := by
    unfold SV.consts at hc
    obtain ⟨f, hf, hc⟩ := bind_ok.mp hc
    rw [P3.cur] at hf
    have e := SV.view_frame P3.get hf
    have : f.vars.const = M.parameters.map paramEntry := by rw [← hfc, ← e]; rfl
    rw [ok_inj, this] at hc
    rw [← hc, List.filterMap_map]
    have : ((fun e : Str × List DItem => e.2.head?.bind DItem.const) ∘ paramEntry) = fun p => some (Param.constDef p) := by
      funext p; rfl
    rw [this, List.filterMap_eq_map']
  rw [hcd, P3.cur] at h4
  have P4 := loop_phase (fun p hp => by rw [hmem]; exact List.mem_map_of_mem hp) P3 hd h4
  have P5 := (constTerms_only h5).phase P4
  cases k with
  | zero => simp [SV.visitModule] at h6
  | succ k =>
    have G := hb k s5 s6 (P5.ready hr.fdef hr.tdef hr.fresh) (visitModule_all hdef h6)
    rw [← h7]
    have hdecl := hO.tableNodes
    have hcn : ∀ x, f1.vars.const.has x = true → ∃ y ∈ ds, y.constName = some x := by
      intro x hx
      obtain ⟨p, hp, rfl⟩ := List.mem_map.mp ((hmem x).mp hx)
      exact ⟨_, hdecl _ (param_node hp), rfl⟩
    have hEt : EnvAt true s6.view s6.vals (s.current ++ [⟨n, .module, none⟩]) [d] := by rw [← P5.cur]; exact G.env
    refine Grew.close hr P5.new P5.view P5.cur P5.vals P5.fdef P5.tdef G ?_ P5.alw .inst hcn ?_ ?_ rfl ?_
    · intro c hin
      left
      refine hin.1.eq_of_length ?_
      have a := hin.1.length_le
      have b := hin.2
      simp only [List.length_cons, List.length_nil, List.length_append] at a b ⊢
      omega
    · intro x hx
      rw [Bool.or_eq_true] at hx
      rcases hx with hx | hx
      · obtain ⟨p, hp, rfl⟩ := List.mem_map.mp ((hmem x).mp hx)
        exact ⟨_, hdecl _ (param_node hp), rfl⟩
      · rw [hfs] at hx
        obtain ⟨y, hy, e⟩ := hsg sg hsg1 x hx
        exact ⟨y, hdecl y hy, e⟩
    · refine (P5.outer hr).congr ?_ ?_
      · intro x hx
        obtain ⟨f, f', new, A⟩ := G.view
        have hx1 : s5.view.has x = true := (P5.outer hr).has x hx
        have hne : s5.current ≠ x := by
          rw [P5.cur]; rintro rfl
          exact prefix_append_ne (by simp) hx.1
        rw [A.view, Dict.get?_append (by rw [Dict.has_set, hx1]; simp), Dict.get?_set, if_neg hne]
      · intro x y hx
        refine G.keep x y ((P5.outer hr).has x hx) ?_
        rw [P5.cur]
        intro hin
        have e : x = s.current ++ [⟨n, .module, none⟩] := by
          refine hin.1.eq_of_length ?_
          have a := hin.1.length_le
          have b := hin.2
          simp only [List.length_cons, List.length_nil, List.length_append] at a b ⊢
          omega
        rw [e] at hx
        exact prefix_append_ne (by simp) hx.1
    · intro x v hx
      obtain ⟨f, d', σ', e, hf, hD⟩ := hEt.here
      simp only [List.cons.injEq] at e
      rw [e.1] at hx
      exact (hD.some_ x v hx).2

end Pyv
