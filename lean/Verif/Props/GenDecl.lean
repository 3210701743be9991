import Verif.Props.GenStep
/-
  C85: declarations and scopes.
-/
namespace Pyv

theorem EnvAt.inv {b V K c l d σ} (h : EnvAt b V K (c ++ [l]) (d :: σ)) (hσ : σ ≠ []) :
    ∃ f, V.get? (c ++ [l]) = some f ∧ DictAt b K (c ++ [l]) f d ∧ EnvAt b V K c σ := by
  generalize hc : c ++ [l] = c' at h
  generalize hs : d :: σ = σ' at h
  cases h with
  | top => simp only [List.cons.injEq] at hs; exact absurd hs.2 hσ
  | up h1 _ _ h4 h5 =>
    simp only [List.cons.injEq] at hs
    obtain ⟨rfl, rfl⟩ := hs
    obtain ⟨e1, e2⟩ := List.append_inj' hc rfl
    subst e1
    exact ⟨_, h1, h4, h5⟩

theorem EnvAt.here {b V K c σ} (h : EnvAt b V K c σ) : ∃ f d σ', σ = d :: σ' ∧ V.get? c = some f ∧ DictAt b K c f d := by
  cases h with
  | top h1 _ h3 => exact ⟨_, _, [], rfl, h1, h3⟩
  | up h1 _ _ h4 _ => exact ⟨_, _, _, rfl, h1, h4⟩

theorem EnvAt.replace {b b' V K c d σ f} (h : EnvAt b V K c (d :: σ)) (hb : b' = true → b = true) (hf : V.get? c = some f) {vs d' K'}
    (hd : DictAt b' K' c { f with vars := vs } d')
    (hK : ∀ x n, x ≠ c → K'.get? (x ++ [sigName n]) = K.get? (x ++ [sigName n])) :
    EnvAt b' (Dict.set V c { f with vars := vs }) K' c (d' :: σ) := by
  have hw : ∀ {c σ}, EnvAt b V K c σ → EnvAt b' V K c σ := by
    intro c σ h
    cases b' with
    | false => exact h.weaken
    | true => rw [hb rfl] at h; exact h
  generalize hs : d :: σ = σ' at h
  cases h with
  | @top c f0 d0 h1 h2 h3 =>
    simp only [List.cons.injEq] at hs
    obtain ⟨rfl, rfl⟩ := hs
    have e : f0 = f := Option.some.inj (h1.symm.trans hf)
    subst e
    exact .top (f := { f0 with vars := vs }) (by rw [Dict.get?_set, if_pos rfl]) h2 hd
  | @up c l f0 d0 σ0 h1 h2 h3 h4 h5 =>
    simp only [List.cons.injEq] at hs
    obtain ⟨rfl, rfl⟩ := hs
    have e : f0 = f := Option.some.inj (h1.symm.trans hf)
    subst e
    refine .up (f := { f0 with vars := vs }) (by rw [Dict.get?_set, if_pos rfl]) h2 h3 hd ((hw h5).congr ?_ ?_)
    · intro x hx
      rw [Dict.get?_set, if_neg]
      rintro rfl
      exact prefix_append_ne (by simp) hx.1
    · intro x n hx
      apply hK
      rintro rfl
      exact prefix_append_ne (by simp) hx.1

/-! ### A scope -/

/-- A scope is left again. -/
theorem Grew.close {s t t2 : SV} {g σ σ' τ τ' l f0 ds d sc p} (hr : s.Ready g σ) (hn : s.view.has (s.current ++ [l]) = false)
    (hv1 : t.view = s.view ++ [(s.current ++ [l], f0)]) (hc : t.current = s.current ++ [l])
    (hk : ∀ c n, c ≠ s.current ++ [l] → t.vals.get? (c ++ [sigName n]) = s.vals.get? (c ++ [sigName n]))
    (hfd : t.fdef = s.fdef) (htd : t.tdef = s.tdef) (G : Grew t t2 τ τ' ds sc)
    (hin : ∀ c, InEnv (s.current ++ [l]) τ.length c → c = s.current ++ [l] ∨ InEnv s.current σ.length c)
    (ha : f0.isAlways = false) (hp : LabelFor l p)
    (hcn : ∀ n, f0.vars.const.has n = true → ∃ d ∈ ds, d.constName = some n)
    (hnn : ∀ n, (f0.vars.const.has n || f0.vars.signal.has n) = true → ∃ d ∈ ds, d.declName = some n)
    (hE : EnvAt true t2.view t2.vals s.current σ') (hlen : σ'.length = σ.length)
    (hD : ∀ n v, d.get? n = some v → ∃ w, t2.vals.get? (s.current ++ [l] ++ [sigName n]) = some (.evi v (some w))) :
    Grew s { t2 with current := s.current } σ σ' [] (scopeTree p ds d sc) := by
  obtain ⟨f0', f1, new, A⟩ := G.view
  obtain ⟨fc, hfc, _, _⟩ := hr.frame
  have hf0 : f0' = f0 := by
    have := A.old
    rw [hc, hv1, Dict.get?_append_right hn] at this
    simp [Dict.get?_cons] at this
    exact this.symm
  subst hf0
  have hview : t2.view = s.view ++ (s.current ++ [l], f1) :: new := by
    rw [A.view, hv1, hc]
    have : Dict.set (s.view ++ [(s.current ++ [l], f0')]) (s.current ++ [l]) f1 = s.view ++ [(s.current ++ [l], f1)] := by
      have : ∀ (V : Dict ScopeChain SFrame) c a b, V.has c = false → Dict.set (V ++ [(c, a)]) c b = V ++ [(c, b)] := by
        intro V c a b hV
        induction V with
        | nil => simp [Dict.set]
        | cons q V ih =>
          obtain ⟨x, y⟩ := q
          simp only [Dict.has, List.any_cons, Bool.or_eq_false_iff, decide_eq_false_iff_not] at hV
          rw [List.cons_append]
          simp only [Dict.set]
          rw [if_neg hV.1, ih hV.2]; rfl
      exact this _ _ _ _ hn
    rw [this]; simp
  refine ⟨rfl, G.fdef.trans hfd, G.tdef.trans htd, hlen, ?_, hE, G.fresh, fc, fc, (s.current ++ [l], f1) :: new, hfc, rfl, ?_, ?_, ?_, ?_, ?_, ?_, ?_⟩
  · intro c n hcn hni
    show t2.vals.get? _ = _
    have hne : c ≠ s.current ++ [l] := by rintro rfl; rw [hn] at hcn; simp at hcn
    rw [← hk c n hne]
    refine G.keep c n ?_ ?_
    · rw [hv1, Dict.has_append, hcn]; rfl
    · intro hi
      rw [hc] at hi
      rcases hin c hi with e | e
      · exact hne e
      · exact hni e
  · show t2.view = _
    rw [hview, Dict.set_same hfc]
  · simp
  · simp
  · have halw : f1.isAlways = false := by rw [A.vars]; exact ha
    rw [List.filter_cons, halw]
    simp only [Bool.not_false, if_true]
    refine .cons ⟨⟨[l], rfl, .cons hp .nil⟩, ?_, ?_, ?_⟩ ?_
    · intro n
      rw [A.consts]
      exact ⟨fun h => h.elim (hcn n) id, .inr⟩
    · intro n
      rw [A.names]
      exact ⟨fun h => h.elim (hnn n) id, .inr⟩
    · intro n v hnv
      exact hD n v hnv
    · rw [List.forall₂_map_right_iff]
      refine forall₂_imp_both A.shows ?_
      intro e _ x _ hsx
      refine ⟨?_, hsx.consts, hsx.names, hsx.vals⟩
      obtain ⟨ls, hl, hfl⟩ := hsx.name
      refine ⟨l :: ls, ?_, .cons hp hfl⟩
      rw [hl, hc]; simp
  · intro x hx
    rcases List.mem_cons.mp hx with rfl | hx
    · simp
    · obtain ⟨y, _, rfl⟩ := List.mem_map.mp hx
      simp [GScope.under]
  · rw [List.map_cons, List.nodup_cons]
    refine ⟨?_, A.nodup⟩
    intro hm
    obtain ⟨y, hy, e⟩ := List.mem_map.mp hm
    have := A.newKeys y hy
    rw [e, hv1, Dict.has_append] at this
    simp [Dict.has] at this
  · intro e he
    rcases List.mem_cons.mp he with rfl | he
    · exact hn
    · have := A.newKeys e he
      rw [hv1, Dict.has_append] at this
      simp only [Bool.or_eq_false_iff] at this
      exact this.1

theorem Grew.inside {s s3 : SV} {g g' σ σ' l f ds d sc p} {body : SV → Py SV} (hr : s.Ready g σ) (h : s.inside l f body = .ok s3)
    (hm : f.isModule = false) (hg : f.isGenerate = g') (ha : f.isAlways = false) (hv : f.vars = ⟨[], [], []⟩) (hp : LabelFor l p)
    (hb : ∀ s1 s2, s1.Ready g' ([] :: σ) → body s1 = .ok s2 → Grew s1 s2 ([] :: σ) (d :: σ') ds sc) :
    Grew s s3 σ σ' [] (scopeTree p ds d sc) := by
  unfold SV.inside at h
  obtain ⟨s1, h1, h⟩ := bind_ok.mp h
  obtain ⟨s2, h2, h⟩ := bind_ok.mp h
  rw [ok_inj] at h; subst h
  have r1 := Ready.sub hr h1 hm hg ha hv
  have G := hb s1 s2 r1 h2
  obtain ⟨hn, hv1, hs⟩ := addFrame_ok h1
  have hc : s1.current = s.current ++ [l] := by rw [hs]
  have hk : s1.vals = s.vals := by rw [hs]
  have hlen : σ'.length = σ.length := by have := G.len; simpa using this
  have hne : σ' ≠ [] := by
    intro e
    have := hr.env.len.1
    rw [e] at hlen
    exact this (List.length_eq_zero_iff.mp hlen.symm)
  have hE := G.env
  rw [hc] at hE
  obtain ⟨fe, hfe, hDe, hEe⟩ := hE.inv hne
  refine Grew.close hr hn hv1 hc (fun _ _ _ => by rw [hk]) (by rw [hs]) (by rw [hs]) G ?_ ha hp ?_ ?_ hEe hlen (fun n v h => (hDe.some_ n v h).2)
  · intro c hi
    have h2 := hi.2
    rcases List.prefix_concat_iff.mp hi.1 with e | e
    · exact .inl e
    · refine .inr ⟨e, ?_⟩
      simp at h2; omega
  · intro n h
    have h : f.vars.const.has n = true := h
    rw [hv] at h; simp [Dict.has] at h
  · intro n h
    have h : (f.vars.const.has n || f.vars.signal.has n) = true := h
    rw [hv] at h; simp [Dict.has] at h

/-! ### Declarations -/

theorem modify_vars {s s1 : SV} {h : Variables DItem → Variables DItem} (hm : s.modify (fun f => { f with vars := h f.vars }) = .ok s1) :
    ∃ f, s.view.get? s.current = some f ∧ s1.view = Dict.set s.view s.current { f with vars := h f.vars } ∧ s1 = { s with frames := s1.frames } := by
  unfold SV.modify at hm
  obtain ⟨f, hf, hm⟩ := bind_ok.mp hm
  rw [ok_inj] at hm
  refine ⟨f.core, SV.frame_view hf, ?_, by rw [← hm]⟩
  rw [← hm]
  unfold SV.view
  rw [Dict.set_map s.frames SFrame.core]
  rfl

theorem VariableTable.has_add {V : Type} (t : VariableTable V) (n m : Str) (v : V) :
    (t.add n v).has m = (decide (n = m) || t.has m) := by
  unfold VariableTable.add
  split <;> rw [Dict.has_set]

/-- A declaration changes the current frame, and possibly the value of the declared constant. -/
theorem Grew.declare {s s' : SV} {g d σ x} (hr : s.Ready g (d :: σ)) {f vs d'} (hf : s.view.get? s.current = some f)
    (hc : s'.current = s.current) (hfd : s'.fdef = s.fdef) (htd : s'.tdef = s.tdef)
    (hv : s'.view = Dict.set s.view s.current { f with vars := vs })
    (hk : ∀ c n, c ≠ s.current → s'.vals.get? (c ++ [sigName n]) = s.vals.get? (c ++ [sigName n]))
    (hd : DictAt true s'.vals s.current { f with vars := vs } d')
    (hcn : ∀ n, vs.const.has n = true ↔ f.vars.const.has n = true ∨ x.constName = some n)
    (hn : ∀ n, (vs.const.has n || vs.signal.has n) = true ↔ (f.vars.const.has n || f.vars.signal.has n) = true ∨ x.declName = some n) :
    Grew s s' (d :: σ) (d' :: σ) [x] [] := by
  have hin : ∀ c, ¬ InEnv s.current (d :: σ).length c → c ≠ s.current := by
    rintro c hc rfl
    exact hc ⟨List.prefix_refl _, by simp⟩
  refine ⟨hc, hfd, htd, rfl, fun c n _ h => hk c n (hin c h), ?_, ?_, f, { f with vars := vs }, [], hf, rfl, ?_, ?_, ?_, .nil, by simp, by simp, by simp⟩
  · rw [hv]
    exact hr.env.replace (fun h => h) hf hd hk
  · intro c n h
    rw [hv, Dict.has_set] at h
    simp only [Bool.or_eq_false_iff, decide_eq_false_iff_not] at h
    rw [hk c n (fun e => h.1 e.symm)]
    exact hr.fresh c n h.2
  · rw [hv]; simp
  · intro n; simp [hcn]
  · intro n
    show (vs.const.has n || vs.signal.has n) = true ↔ _
    rw [hn]; simp

theorem signal_grew {s s' : SV} {g σ x n b} (hr : s.Ready g σ) (h : s.addSignal n x b = .ok s') (hx : x.constName = none)
    (hxn : x.declName = some n) : Grew s s' σ σ [x] [] := by
  unfold SV.addSignal at h
  rw [hr.fdef, hr.tdef] at h
  simp only [Bool.or_self, Bool.false_and, Bool.false_eq_true, if_false] at h
  obtain ⟨f, hf, hv, hs⟩ := modify_vars (h := fun v => v.addSignal n x) h
  obtain ⟨f', d, σ', rfl, hf', hd⟩ := hr.env.here
  have e : f' = f := Option.some.inj (hf'.symm.trans hf)
  subst e
  have hconst : (f'.vars.addSignal n x).const = f'.vars.const := by
    unfold Variables.addSignal; split <;> rfl
  refine Grew.declare hr hf (by rw [hs]) (by rw [hs]) (by rw [hs]) hv (fun c m _ => by rw [hs]) ?_ ?_ ?_
  · have : s'.vals = s.vals := by rw [hs]
    rw [this]
    refine ⟨?_, ?_⟩
    · intro m v hm
      have := hd.some_ m v hm
      exact ⟨by rw [← this.1]; exact congrArg (fun c : VariableTable DItem => c.has m) hconst, this.2⟩
    · intro m hm
      have := hd.none_ m hm
      exact ⟨this.1, fun a b => by rw [← this.2 a b]; exact congrArg (fun c : VariableTable DItem => c.has m) hconst⟩
  · intro m
    rw [hconst, hx]; simp
  · intro m
    rw [hconst, hxn]
    unfold Variables.addSignal
    split
    · rename_i hh
      constructor
      · exact .inl
      · rintro (h | h)
        · exact h
        · simp only [Option.some.injEq] at h; subst h; rw [hh]; rfl
    · simp only [VariableTable.has_add, Bool.or_eq_true, decide_eq_true_eq, Option.some.injEq]
      tauto

theorem const_add {s s1 : SV} {n x} (h : s.addConst n x = .ok s1) : ∃ f, s.view.get? s.current = some f ∧
    s1.view = Dict.set s.view s.current { f with vars := f.vars.addConst n x } ∧ s1 = { s with frames := s1.frames } :=
  modify_vars (h := fun v => v.addConst n x) h

theorem addConst_has (v : Variables DItem) (n x m) : (v.addConst n x).const.has m = true ↔ v.const.has m = true ∨ n = m := by
  unfold Variables.addConst
  split
  · rename_i hh
    constructor
    · exact .inl
    · rintro (h | rfl)
      · exact h
      · exact hh
  · simp only [VariableTable.has_add, Bool.or_eq_true, decide_eq_true_eq]
    tauto

theorem addConst_signal (v : Variables DItem) (n x) : (v.addConst n x).signal = v.signal := by
  unfold Variables.addConst; split <;> rfl

theorem addConst_names (v : Variables DItem) (n x m) : ((v.addConst n x).const.has m || (v.addConst n x).signal.has m) = true ↔
    (v.const.has m || v.signal.has m) = true ∨ n = m := by
  rw [Bool.or_eq_true, addConst_has, addConst_signal, Bool.or_eq_true]
  tauto

/-- A constant that has a value. -/
theorem const_old {s s1 : SV} {g d σ n x v} (hr : s.Ready g (d :: σ)) (h : s.addConst n x = .ok s1) (hx : x.constName = some n)
    (hxn : x.declName = some n) (hd : d.get? n = some v) : Grew s s1 (d :: σ) (d :: σ) [x] [] ∧
    s1.octx.consts.has (s1.current ++ [⟨n, .signal, none⟩]) = true := by
  obtain ⟨f, hf, hv, hs⟩ := const_add h
  obtain ⟨f', d0, σ', e0, hf', hD⟩ := hr.env.here
  simp only [List.cons.injEq] at e0
  obtain ⟨rfl, rfl⟩ := e0
  have e : f' = f := Option.some.inj (hf'.symm.trans hf)
  subst e
  have hk : s1.vals = s.vals := by rw [hs]
  have hhas := hD.some_ n v hd
  have hsame : f'.vars.addConst n x = f'.vars := by unfold Variables.addConst; rw [if_pos hhas.1]
  refine ⟨Grew.declare hr hf (by rw [hs]) (by rw [hs]) (by rw [hs]) hv (fun c m _ => by rw [hk]) ?_ ?_ ?_, ?_⟩
  · rw [hk, hsame]; exact hD
  · intro m; rw [addConst_has, hx]; simp
  · intro m; rw [addConst_names, hxn]; simp
  · obtain ⟨w, hw⟩ := hhas.2
    have hc : s1.current = s.current := by rw [hs]
    rw [hc]
    have := Dict.has_of_get? hw
    rw [← hk] at this
    exact this

/-- A constant that gets its value. -/
theorem const_new {s s1 : SV} {g d σ n x} (hr : s.Ready g (d :: σ)) (h : s.addConst n x = .ok s1) (hx : x.constName = some n)
    (hxn : x.declName = some n) (hd : d.get? n = none) : s1.octx.consts.has (s1.current ++ [⟨n, .signal, none⟩]) = false ∧
    s1.current = s.current ∧
    EnvAt false s1.view s1.vals s1.current (d :: σ) ∧
    ∀ v w, Grew s (s1.setConst (s1.current ++ [⟨n, .signal, none⟩]) (.evi v (some w))) (d :: σ) (d.set n v :: σ) [x] [] := by
  obtain ⟨f, hf, hv, hs⟩ := const_add h
  obtain ⟨f', d0, σ', e0, hf', hD⟩ := hr.env.here
  simp only [List.cons.injEq] at e0
  obtain ⟨rfl, rfl⟩ := e0
  have e : f' = f := Option.some.inj (hf'.symm.trans hf)
  subst e
  have hk : s1.vals = s.vals := by rw [hs]
  have hc : s1.current = s.current := by rw [hs]
  refine ⟨?_, hc, ?_, ?_⟩
  · rw [Dict.has_eq, hc]
    have := (hD.none_ n hd).1
    rw [← hk] at this
    have this' : s1.octx.consts.get? (s.current ++ [⟨n, .signal, none⟩]) = none := this
    rw [this']; rfl
  · rw [hv, hk, hc]
    refine hr.env.replace (by simp) hf ⟨?_, ?_⟩ (fun _ _ _ => rfl)
    · intro m v hm
      exact ⟨(addConst_has _ _ _ _).mpr (.inl (hD.some_ m v hm).1), (hD.some_ m v hm).2⟩
    · intro m hm
      exact ⟨(hD.none_ m hm).1, by simp⟩
  · intro v w
    have hk' : (s1.setConst (s1.current ++ [⟨n, .signal, none⟩]) (.evi v (some w))).vals =
        Dict.set s.vals (s.current ++ [sigName n]) (.evi v (some w)) := by
      show Dict.set s1.vals _ _ = _
      rw [hk, hc]
    refine Grew.declare hr hf hc (by show s1.fdef = _; rw [hs]) (by show s1.tdef = _; rw [hs]) hv ?_ ?_ ?_ ?_
    · intro c m hcm
      rw [hk', Dict.get?_set, if_neg]
      intro e
      exact hcm (List.append_inj_left' e rfl).symm
    · rw [hk']
      have hne : ∀ m, n ≠ m → ¬ s.current ++ [sigName n] = s.current ++ [sigName m] := by
        intro m hm e
        apply hm
        have := List.append_inj_right' e rfl
        simpa using this
      refine ⟨?_, ?_⟩
      · intro m u hm
        rw [Dict.get?_set] at hm
        by_cases e : n = m
        · subst e
          simp only [if_true, Option.some.injEq] at hm
          subst hm
          exact ⟨(addConst_has _ _ _ _).mpr (.inr rfl), w, by rw [Dict.get?_set, if_pos rfl]⟩
        · rw [if_neg e] at hm
          rw [Dict.get?_set, if_neg (hne m e)]
          exact ⟨(addConst_has _ _ _ _).mpr (.inl (hD.some_ m u hm).1), (hD.some_ m u hm).2⟩
      · intro m hm
        rw [Dict.get?_set] at hm
        by_cases e : n = m
        · subst e; simp at hm
        · rw [if_neg e] at hm
          rw [Dict.get?_set, if_neg (hne m e)]
          refine ⟨(hD.none_ m hm).1, fun a b => ?_⟩
          have h0 := (hD.none_ m hm).2 a b
          rw [Bool.eq_false_iff]
          intro h1
          rcases (addConst_has _ _ _ _).mp h1 with h1 | h1
          · rw [h0] at h1; simp at h1
          · exact e h1
    · intro m; rw [addConst_has, hx]; simp
    · intro m; rw [addConst_names, hxn]; simp

theorem visitNode_grew {s s' : SV} {g σ x ds σ'} (hr : s.Ready g σ) (hd : DeclVals σ (x :: ds) σ') (h : s.visitNode x = .ok s') :
    ∃ σ1, DeclVals σ1 ds σ' ∧ Grew s s' σ σ1 [x] [] := by
  cases hd with
  | other hx hd =>
    refine ⟨σ, hd, ?_⟩
    cases x with
    | var v => exact signal_grew hr h rfl rfl
    | int n v => exact signal_grew hr h rfl rfl
    | supply n a b c => exact signal_grew hr h rfl rfl
    | real n =>
      simp only [SV.visitNode, ok_inj] at h; subst h
      have := Grew.quiet hr (s' := s) rfl rfl rfl rfl rfl
      obtain ⟨f, f', new, A⟩ := this.view
      exact { this with view := ⟨f, f', new, { A with consts := by intro n; rw [A.consts]; simp [DItem.constName],
                                                      names := by intro n; rw [A.names]; simp [DItem.declName] }⟩ }
    | assign l r =>
      simp only [SV.visitNode, ok_inj] at h; subst h
      have := Grew.quiet hr (s' := s) rfl rfl rfl rfl rfl
      obtain ⟨f, f', new, A⟩ := this.view
      exact { this with view := ⟨f, f', new, { A with consts := by intro n; rw [A.consts]; simp [DItem.constName],
                                                      names := by intro n; rw [A.names]; simp [DItem.declName] }⟩ }
    | genvar n => simp [DItem.constName] at hx
    | param l p => simp [DItem.constName] at hx
  | @old d0 σ0 _ n v _ _ hx hv hd =>
    refine ⟨_, hd, ?_⟩
    cases x with
    | genvar m =>
      simp only [DItem.constName, Option.some.injEq] at hx; subst hx
      simp only [SV.visitNode] at h
      obtain ⟨s1, h1, h⟩ := bind_ok.mp h
      obtain ⟨G, hh⟩ := const_old hr h1 rfl rfl hv
      rw [if_pos hh, ok_inj] at h; subst h; exact G
    | param l p =>
      simp only [DItem.constName, Option.some.injEq] at hx; subst hx
      simp only [SV.visitNode] at h
      obtain ⟨s1, h1, h⟩ := bind_ok.mp h
      obtain ⟨G, hh⟩ := const_old hr h1 rfl rfl hv
      rw [if_pos hh, ok_inj] at h; subst h; exact G
    | _ => simp [DItem.constName] at hx
  | genvar hv hd =>
    refine ⟨_, hd, ?_⟩
    simp only [SV.visitNode] at h
    obtain ⟨s1, h1, h⟩ := bind_ok.mp h
    obtain ⟨hh, _, _, G⟩ := const_new hr h1 rfl rfl hv
    rw [if_neg (by rw [hh]; simp), ok_inj] at h; subst h
    exact G 0 32
  | param hv he hd =>
    refine ⟨_, hd, ?_⟩
    simp only [SV.visitNode] at h
    obtain ⟨s1, h1, h⟩ := bind_ok.mp h
    obtain ⟨hh, hc, hE, G⟩ := const_new hr h1 rfl rfl hv
    rw [if_neg (by rw [hh]; simp)] at h
    obtain ⟨y, hy, h⟩ := bind_ok.mp h
    obtain ⟨w, rfl⟩ := SV.eval_val hE he hy
    rw [ok_inj] at h; subst h
    exact G _ w

theorem visitNodes_grew (ds : List DItem) : ∀ {s s' : SV} {g σ σ'}, s.Ready g σ → DeclVals σ ds σ' → ds.foldlM SV.visitNode s = .ok s' →
    Grew s s' σ σ' ds [] := by
  induction ds with
  | nil =>
    intro s s' g σ σ' hr hd h
    cases hd
    simp only [List.foldlM_nil, pure, Except.pure, Except.ok.injEq] at h; subst h
    exact Grew.quiet hr rfl rfl rfl rfl rfl
  | cons x ds ih =>
    intro s s' g σ σ' hr hd h
    rw [List.foldlM_cons] at h
    obtain ⟨s1, h1, h⟩ := bind_ok.mp h
    obtain ⟨σ1, hd1, G⟩ := visitNode_grew hr hd h1
    have := G.trans (ih (G.ready hr) hd1 h)
    simpa using this

end Pyv
