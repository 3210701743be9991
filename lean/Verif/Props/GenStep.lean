import Verif.Props.GenInv
/-
  C85: what a step of the first pass does to the frame table and the constants.
-/
namespace Pyv

/-- The pass stands in a scope with the constants `σ`. -/
structure SV.Ready (s : SV) (g : Bool) (σ : GEnv) : Prop where
  frame : ∃ f, s.view.get? s.current = some f ∧ f.isGenerate = g ∧ f.isAlways = false
  fdef : s.fdef = false
  tdef : s.tdef = false
  env : EnvAt true s.view s.vals s.current σ
  fresh : ∀ c n, s.view.has c = false → s.vals.get? (c ++ [sigName n]) = none

/-- The table grew: the current frame got the declarations `ds`, and the new frames show the scopes `sc`. -/
structure FrameAdded (s s' : SV) (ds : List DItem) (sc : List GScope) (f f' : SFrame) (new : Dict ScopeChain SFrame) : Prop where
  old : s.view.get? s.current = some f
  vars : f' = { f with vars := f'.vars }
  view : s'.view = Dict.set s.view s.current f' ++ new
  consts : ∀ n, f'.vars.const.has n = true ↔ f.vars.const.has n = true ∨ ∃ d ∈ ds, d.constName = some n
  names : ∀ n, (f'.vars.const.has n || f'.vars.signal.has n) = true ↔
    (f.vars.const.has n || f.vars.signal.has n) = true ∨ ∃ d ∈ ds, d.declName = some n
  shows : List.Forall₂ (ShowsScope s'.vals s.current) (new.filter (fun e => !e.2.isAlways)) sc
  paths : ∀ x ∈ sc, x.path ≠ []
  nodup : (new.map (·.1)).Nodup
  newKeys : ∀ e ∈ new, s.view.has e.1 = false

/-- The effect of a step. -/
structure Grew (s s' : SV) (σ σ' : GEnv) (ds : List DItem) (sc : List GScope) : Prop where
  cur : s'.current = s.current
  fdef : s'.fdef = s.fdef
  tdef : s'.tdef = s.tdef
  len : σ'.length = σ.length
  keep : ∀ c n, s.view.has c = true → ¬ InEnv s.current σ.length c → s'.vals.get? (c ++ [sigName n]) = s.vals.get? (c ++ [sigName n])
  env : EnvAt true s'.view s'.vals s.current σ'
  fresh : ∀ c n, s'.view.has c = false → s'.vals.get? (c ++ [sigName n]) = none
  view : ∃ f f' new, FrameAdded s s' ds sc f f' new

theorem Dict.has_of_get? {κ α : Type} [DecidableEq κ] {d : Dict κ α} {k : κ} {v : α} (h : d.get? k = some v) : d.has k = true := by
  rw [Dict.has_eq, h]; rfl

theorem Dict.has_set {κ α : Type} [DecidableEq κ] (d : Dict κ α) (k k' : κ) (v : α) :
    (d.set k v).has k' = (decide (k = k') || d.has k') := by
  rw [Dict.has_eq, Dict.has_eq, Dict.get?_set]
  by_cases h : k = k' <;> simp [h]

theorem Dict.get?_append {κ α : Type} [DecidableEq κ] {d e : Dict κ α} {k : κ} (h : d.has k = true) : Dict.get? (d ++ e) k = d.get? k := by
  induction d with
  | nil => simp [Dict.has] at h
  | cons p d ih =>
    rw [List.cons_append, Dict.get?_cons, Dict.get?_cons]
    by_cases e : p.1 = k
    · rw [if_pos e, if_pos e]
    · rw [if_neg e, if_neg e]
      apply ih
      simpa [Dict.has, e] using h

theorem Dict.set_append {κ α : Type} [DecidableEq κ] {d e : Dict κ α} {k : κ} {v : α} (h : d.has k = true) :
    Dict.set (d ++ e) k v = Dict.set d k v ++ e := by
  induction d with
  | nil => simp [Dict.has] at h
  | cons p d ih =>
    obtain ⟨a, b⟩ := p
    rw [List.cons_append]
    simp only [Dict.set]
    by_cases e : a = k
    · rw [if_pos e, if_pos e]; rfl
    · rw [if_neg e, if_neg e, List.cons_append, ih]
      simpa [Dict.has, e] using h

theorem Dict.set_set {κ α : Type} [DecidableEq κ] {d : Dict κ α} {k : κ} {v w : α} : Dict.set (Dict.set d k v) k w = Dict.set d k w := by
  induction d with
  | nil => simp [Dict.set]
  | cons p d ih =>
    obtain ⟨a, b⟩ := p
    simp only [Dict.set]
    by_cases e : a = k
    · simp [e, Dict.set]
    · simp [e, Dict.set, ih]

theorem prefix_append_ne {a : ScopeChain} {ls : ScopeChain} (h : ls ≠ []) : ¬ (a ++ ls) <+: a := by
  intro hp
  have h1 := hp.length_le
  have h2 : 0 < ls.length := List.length_pos_iff.mpr h
  rw [List.length_append] at h1
  omega

theorem Grew.ready {s s' : SV} {g σ σ' ds sc} (hr : s.Ready g σ) (h : Grew s s' σ σ' ds sc) : s'.Ready g σ' := by
  obtain ⟨f0, hf0, hg, ha⟩ := hr.frame
  obtain ⟨f, f', new, A⟩ := h.view
  have hfe : f0 = f := Option.some.inj (hf0.symm.trans A.old)
  subst hfe
  refine ⟨⟨f', ?_, ?_, ?_⟩, h.fdef.trans hr.fdef, h.tdef.trans hr.tdef, by rw [h.cur]; exact h.env, h.fresh⟩
  · rw [h.cur, A.view, Dict.get?_append (by rw [Dict.has_set]; simp), Dict.get?_set, if_pos rfl]
  · rw [A.vars]; exact hg
  · rw [A.vars]; exact ha

/-- Nothing that counts changed. -/
theorem Grew.quiet {s s' : SV} {g σ} (hr : s.Ready g σ) (hc : s'.current = s.current) (hv : s'.view = s.view) (hk : s'.vals = s.vals)
    (hf : s'.fdef = s.fdef) (ht : s'.tdef = s.tdef) : Grew s s' σ σ [] [] := by
  obtain ⟨f, hf0, _, _⟩ := hr.frame
  refine ⟨hc, hf, ht, rfl, fun c n _ _ => by rw [hk], by rw [hv, hk]; exact hr.env, by rw [hv, hk]; exact hr.fresh, f, f, [], ?_⟩
  exact ⟨hf0, rfl, by rw [hv, Dict.set_same hf0]; simp, by simp, by simp, .nil, by simp, by simp, by simp⟩

theorem FrameAdded.hasNew {s s' : SV} {ds sc f f' new} (A : FrameAdded s s' ds sc f f' new) (c : ScopeChain) :
    s'.view.has c = (s.view.has c || new.has c) := by
  rw [A.view, Dict.has_append, Dict.has_set]
  by_cases h : s.current = c
  · have := Dict.has_of_get? A.old
    rw [← h, this]; simp
  · simp [h]

theorem ShowsScope.keep {K K' : Dict ScopeChain DF} {base e x} (h : ShowsScope K base e x)
    (hk : ∀ n, K'.get? (e.1 ++ [sigName n]) = K.get? (e.1 ++ [sigName n])) : ShowsScope K' base e x :=
  ⟨h.name, h.consts, h.names, fun n v hv => by
    have := h.vals n v hv
    rw [← hk n] at this
    exact this⟩

theorem forall₂_imp_both {α β : Type} {R S : α → β → Prop} : ∀ {as : List α} {bs : List β}, List.Forall₂ R as bs →
    (∀ a ∈ as, ∀ b ∈ bs, R a b → S a b) → List.Forall₂ S as bs := by
  intro as bs h
  induction h with
  | nil => intro _; exact .nil
  | cons h _ ih =>
    intro hi
    exact .cons (hi _ (by simp) _ (by simp) h) (ih (fun a ha b hb => hi a (by simp [ha]) b (by simp [hb])))

theorem Grew.trans {s s1 s2 : SV} {σ σ1 σ2 ds1 ds2 sc1 sc2} (h1 : Grew s s1 σ σ1 ds1 sc1) (h2 : Grew s1 s2 σ1 σ2 ds2 sc2) :
    Grew s s2 σ σ2 (ds1 ++ ds2) (sc1 ++ sc2) := by
  obtain ⟨f, f1, new1, A⟩ := h1.view
  obtain ⟨f1', f2, new2, B⟩ := h2.view
  have e1 : s1.view.get? s.current = some f1 := by
    rw [A.view, Dict.get?_append (by rw [Dict.has_set]; simp), Dict.get?_set, if_pos rfl]
  have hf1 : f1' = f1 := by
    have := B.old
    rw [h1.cur, e1] at this
    exact (Option.some.inj this).symm
  subst hf1
  refine ⟨h2.cur.trans h1.cur, h2.fdef.trans h1.fdef, h2.tdef.trans h1.tdef, h2.len.trans h1.len, ?_, by rw [← h1.cur]; exact h2.env, h2.fresh, ?_⟩
  · intro c n hc hn
    rw [h2.keep c n (by rw [A.hasNew, hc]; rfl) (by rw [h1.cur, h1.len]; exact hn), h1.keep c n hc hn]
  · refine ⟨f, f2, new1 ++ new2, A.old, ?_, ?_, ?_, ?_, ?_, ?_, ?_, ?_⟩
    · rw [B.vars, A.vars]
    · rw [B.view, A.view, h1.cur, Dict.set_append (by rw [Dict.has_set]; simp), Dict.set_set, List.append_assoc]
    · intro n
      rw [B.consts, A.consts, or_assoc]
      simp only [List.mem_append, or_and_right, exists_or]
    · intro n
      rw [B.names, A.names, or_assoc]
      simp only [List.mem_append, or_and_right, exists_or]
    · rw [List.filter_append]
      refine List.rel_append (R := ShowsScope s2.vals s.current) ?_ (by rw [← h1.cur]; exact B.shows)
      refine forall₂_imp_both A.shows ?_
      intro e he x hx hsx
      refine hsx.keep (fun n => h2.keep e.1 n ?_ ?_)
      · have hm := (List.mem_filter.mp he).1
        rw [A.hasNew]
        have : new1.has e.1 = true := Dict.has_iff_key.mpr (List.mem_map_of_mem hm)
        rw [this]; simp
      · obtain ⟨ls, hl, hfl⟩ := hsx.name
        intro hin
        rw [hl, h1.cur] at hin
        refine prefix_append_ne ?_ hin.1
        rintro rfl
        exact A.paths x hx (List.forall₂_nil_left_iff.mp hfl)
    · intro x hx
      rcases List.mem_append.mp hx with hx | hx
      · exact A.paths x hx
      · exact B.paths x hx
    · rw [List.map_append, List.nodup_append]
      refine ⟨A.nodup, B.nodup, ?_⟩
      intro a ha b hb e
      subst e
      obtain ⟨x, hx, rfl⟩ := List.mem_map.mp ha
      obtain ⟨y, hy, e⟩ := List.mem_map.mp hb
      have := B.newKeys y hy
      rw [e, A.hasNew, Dict.has_iff_key.mpr (List.mem_map_of_mem hx)] at this
      simp at this
    · intro e he
      rcases List.mem_append.mp he with he | he
      · exact A.newKeys e he
      · have := B.newKeys e he
        rw [A.hasNew] at this
        simp only [Bool.or_eq_false_iff] at this
        exact this.1

/-! ### New frames -/

theorem SV.view_has (s : SV) (c : ScopeChain) : s.view.has c = s.frames.has c := by
  unfold SV.view
  rw [Dict.has_eq, Dict.get?_map, Dict.has_eq]
  cases s.frames.get? c <;> rfl

theorem addFrame_ok {s s1 : SV} {l f} (h : s.addFrame l f = .ok s1) : s.view.has (s.current ++ [l]) = false ∧
    s1.view = s.view ++ [(s.current ++ [l], ({ f with previous := s.current } : SFrame).core)] ∧
    s1 = { s with frames := s1.frames, current := s.current ++ [l] } := by
  unfold SV.addFrame at h
  simp only at h
  split at h
  · simp at h
  · rename_i hn
    have hn' : s.view.has (s.current ++ [l]) = false := by rw [SV.view_has]; simpa using hn
    rw [ok_inj] at h
    refine ⟨hn', ?_, by rw [← h]⟩
    rw [← h]
    have key : ∀ fr : Dict ScopeChain SFrame, fr.map (fun e => (e.1, e.2.core)) = s.view →
        (Dict.set fr (s.current ++ [l]) { f with previous := s.current }).map (fun e => (e.1, e.2.core)) =
        s.view ++ [(s.current ++ [l], ({ f with previous := s.current } : SFrame).core)] := by
      intro fr hfr
      rw [Dict.set_map fr SFrame.core, hfr, Dict.set_fresh hn']
    apply key
    cases hc : s.frames.get? s.current with
    | none => rfl
    | some p =>
      simp only
      rw [Dict.set_map s.frames SFrame.core]
      have : (SFrame.core { p with next := p.next ++ [s.current ++ [l]] }) = p.core := rfl
      rw [this]
      apply Dict.set_same
      rw [Dict.get?_map, hc]; rfl

theorem Ready.sub {s s1 : SV} {g σ l f g'} (hr : s.Ready g σ) (h : s.addFrame l f = .ok s1) (hm : f.isModule = false)
    (hg : f.isGenerate = g') (ha : f.isAlways = false) (hv : f.vars = ⟨[], [], []⟩) : s1.Ready g' ([] :: σ) := by
  obtain ⟨hn, hv1, hs⟩ := addFrame_ok h
  have hc : s1.current = s.current ++ [l] := by rw [hs]
  have hk : s1.vals = s.vals := by rw [hs]
  have hget : s1.view.get? (s.current ++ [l]) = some ({ f with previous := s.current } : SFrame).core := by
    rw [hv1, Dict.get?_append_right hn]
    simp [Dict.get?_cons]
  have hold : ∀ c, s.view.has c = true → s1.view.get? c = s.view.get? c := by
    intro c h; rw [hv1, Dict.get?_append h]
  refine ⟨⟨({ f with previous := s.current } : SFrame).core, by rw [hc]; exact hget, hg, ha⟩, by rw [hs]; exact hr.fdef, by rw [hs]; exact hr.tdef, ?_, ?_⟩
  · rw [hc, hk]
    refine .up hget hm rfl ⟨?_, ?_⟩ ?_
    · intro n v hnv; simp [Dict.get?_nil] at hnv
    · intro n _
      refine ⟨hr.fresh _ _ hn, fun _ _ => ?_⟩
      show f.vars.const.has n = false
      rw [hv]; rfl
    · refine hr.env.congr ?_ (fun _ _ _ => rfl)
      intro x hx
      apply hold
      have : ∀ {c σ}, EnvAt true s.view s.vals c σ → ∀ x, InEnv c σ.length x → s.view.has x = true := by
        intro c σ h
        induction h with
        | @top c f d h1 _ _ =>
          intro x hx
          have : x = c := by
            refine hx.1.eq_of_length ?_
            have := hx.1.length_le
            have := hx.2
            simp at this; omega
          rw [this]; exact Dict.has_of_get? h1
        | @up c l f d σ h1 _ _ _ _ ih =>
          intro x hx
          by_cases e : x = c ++ [l]
          · rw [e]; exact Dict.has_of_get? h1
          · apply ih
            have := hx.2
            refine ⟨?_, by simp at this; omega⟩
            rcases List.prefix_concat_iff.mp hx.1 with h | h
            · exact absurd h e
            · exact h
      exact this hr.env x hx
  · intro c n hcn
    rw [hk]
    apply hr.fresh
    rw [hv1, Dict.has_append] at hcn
    simp only [Bool.or_eq_false_iff] at hcn
    exact hcn.1

end Pyv
