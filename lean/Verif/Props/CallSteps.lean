import Verif.Props.CallBody
/-
  C91: the declarations and the body of a function.
-/
namespace Pyv

/-! ### Changes that do not matter -/

/-- The same tables. -/
structure SameT (s s' : BV) : Prop where
  terms : s'.terms = s.terms
  frames : s'.frames = s.frames
  binds : s'.binds = s.binds
  objs : s'.objs = s.objs
  nore : s'.noreorder = s.noreorder

section
variable {s s' s0 : BV} {mod C : ScopeChain} {P : ScopeChain → Prop}

theorem SameT.list (h : SameT s s') (n : ScopeChain) : s'.getBindlist n = s.getBindlist n := by
  simp only [BV.getBindlist, BV.deref, h.binds, h.objs]

theorem SameT.inv (h : SameT s s') (hI : FnInv mod s) : FnInv mod s' := by
  refine ⟨hI.ne, ?_, by rw [h.nore]; exact hI.nore, ?_, ?_, ?_, ?_, ?_⟩
  · simpa [isModFrame, h.frames] using hI.modf
  · have := hI.objs
    simp only [BV.Objs] at this ⊢
    rw [h.binds, h.objs]; exact this
  · rw [h.binds, h.terms]; exact hI.keys
  · rw [h.terms, h.frames]; exact hI.home
  · rw [h.terms]; exact hI.plain
  · rw [h.frames, h.objs]; exact hI.blk

theorem SameT.step (h : SameT s s') : FStep P s s' :=
  ⟨fun c f hf => ⟨f.blocking, by rw [h.frames]; exact hf⟩, fun n t ht => .inl (by rw [h.terms]; exact ht), fun n hn => .inl (by rw [← h.terms]; exact hn),
    fun n _ => .inl (h.list n)⟩

theorem label_sameT {n l : Str} (h : s.label n = .ok (l, s')) : SameT s s' ∧ s'.current = s.current ∧ s'.fuel = s.fuel := by
  simp only [BV.label, bind_ok, ok_inj, Prod.mk.injEq] at h
  obtain ⟨f, _, _, rfl⟩ := h
  exact ⟨⟨rfl, rfl, rfl, rfl, rfl⟩, rfl, rfl⟩

/-- A new frame. -/
theorem push_fn (hI : FnInv mod s) {l : ScopeLabel} {f : Frame} (hb : f.blocking = []) (h : s.push l f = .ok s') :
    FnInv mod s' ∧ FStep (fun _ => False) s s' ∧ s.frames.has (s.current ++ [l]) = false ∧ s'.current = s.current ++ [l] ∧
    s'.frames.get? (s.current ++ [l]) = some { f with previous := s.current } ∧ s'.terms = s.terms ∧ (∀ n, s'.getBindlist n = s.getBindlist n) ∧
    (∀ k, s'.terms.has (s.current ++ [l] ++ [k]) = false) := by
  simp only [BV.push] at h
  split at h
  · cases h
  next hno =>
  simp only [Bool.not_eq_true] at hno
  simp only [ok_inj] at h
  subst h
  have hget : ∀ k, (Dict.set s.frames (s.current ++ [l]) { f with previous := s.current }).get? k =
      if s.current ++ [l] = k then some { f with previous := s.current } else s.frames.get? k := fun k => Dict.get?_set ..
  have hne : ∀ c f', s.frames.get? c = some f' → s.current ++ [l] ≠ c := by
    rintro c f' hc rfl
    rw [hasOfGet hc] at hno; cases hno
  refine ⟨⟨hI.ne, ?_, hI.nore, hI.objs, hI.keys, ?_, hI.plain, ?_⟩, ⟨?_, fun _ _ h => .inl h, fun _ h => .inl h, fun _ _ => .inl rfl⟩, hno, rfl, ?_, rfl, fun _ => rfl, ?_⟩
  · obtain ⟨m, h1, h2⟩ := hI.modf
    exact ⟨m, by simp only [hget, if_neg (hne _ _ h1)]; exact h1, h2⟩
  · intro c k hk
    have := hI.home c k hk
    obtain ⟨f', hf'⟩ := get_some_of_has this
    exact hasOfGet (t := f') (by rw [hget, if_neg (hne _ _ hf')]; exact hf')
  · intro c f' hf' n ids hn i hi
    simp only [hget] at hf'
    split at hf'
    · cases hf'
      simp only [hb] at hn
      cases hn
    · exact hI.blk c f' hf' n ids hn i hi
  · intro c f' hf'
    exact ⟨f'.blocking, by simp only [hget, if_neg (hne _ _ hf')]; exact hf'⟩
  · simp [hget]
  · intro k
    show s.terms.has _ = false
    cases hh : s.terms.has (s.current ++ [l] ++ [k]) with
    | false => rfl
    | true => rw [hI.home _ _ hh] at hno; cases hno

/-! ### Equations -/

/-- The valuation satisfies the equations of the tables of `s` for the signals that are not in those of `s0`, those in the scope `C` with names
in `rest` aside. -/
def Sol (τ : Env) (C : ScopeChain) (s0 s : BV) (rest : List Str) : Prop :=
  ∀ n t, s0.terms.has n = false → s.terms.get? n = some t → (∀ y ∈ rest, n ≠ C ++ [⟨y, .signal, none⟩]) → ∀ b ∈ s.getBindlist n, b.whole → ∀ m l v,
    sem τ t.msb = some m → sem τ t.lsb = some l → sem τ b.tree = some v → τ.sig n = some (fitR m.1 l.1 v)

theorem sol_solves {τ : Env} : Sol τ C s0 s [] ↔ s0.Solves s τ := by
  simp [Sol, BV.Solves]

/-- Steps elsewhere. -/
theorem Sol.back {τ : Env} {rest : List Str} (h : FStep (fun _ => False) s s') (g : Sol τ C s0 s' rest) : Sol τ C s0 s rest := by
  intro n t hn ht hr b hb hw m l v hm hl hv
  have hno : ∀ n, InScope (fun _ => False) n → False := fun n ⟨_, _, _, h⟩ => h
  rcases h.terms n t ht with h1 | h1
  · rcases h.binds n (hasOfGet ht) with h2 | h2
    · exact g n t hn h1 hr b (by rw [h2]; exact hb) hw m l v hm hl hv
    · exact (hno _ h2).elim
  · exact (hno _ h1.1).elim

/-- The equations of the last steps. -/
theorem Sol.fwd {τ : Env} {rest : List Str} (h0 : ∀ n, s0.terms.has n = true → s.terms.has n = true) (hC : s.frames.has C = true) (hs : FStep (fun _ => False) s s')
    (g : Sol τ C s0 s' rest) : s.Solves s' τ := by
  intro n t hn ht b hb hw m l v hm hl hv
  refine g n t ?_ ht ?_ b hb hw m l v hm hl hv
  · cases hh : s0.terms.has n with
    | false => rfl
    | true => rw [h0 n hh] at hn; cases hn
  · rintro y hy rfl
    rw [← hs.keepsScope hC id, hasOfGet ht] at hn; cases hn

/-! ### The scope of a call -/

/-- The bounds of a term are those of the declaration. -/
def BndOK (τ : Env) (look : Vals) (t : Term) (w : Option WRange) : Prop :=
  ∀ r, rangeVal look w = some r → ∃ a b, sem τ t.msb = some a ∧ a.1 = r.1 ∧ sem τ t.lsb = some b ∧ b.1 = r.2

/-- The scope `C` of a call of `f` in the module, in the state `s`. -/
structure FnScope (f : Func) (look : Vals) (τ : Env) (mod C : ScopeChain) (s0 s : BV) : Prop where
  inv : FnInv mod s
  at_ : FnAt mod C s C
  has : s.frames.has C = true
  only : ∀ n, s.terms.has (C ++ [⟨n, .signal, none⟩]) = true → n ∈ f.names ∨ userName n = false
  dec : ∀ n w t, (n, w) ∈ f.vars → s.terms.get? (C ++ [⟨n, .signal, none⟩]) = some t → BndOK τ look t w
  names : ∀ n v, look n = some v → ∃ k, Pyv.resOf s.terms mod n = some k ∧ τ.sig k = some v
  old : ∀ n, s0.terms.has n = true → s.terms.has n = true
  nothing : ∀ l, s0.terms.has (C ++ [l]) = false

variable {f : Func} {look : Vals} {τ : Env}

theorem FnScope.ne (h : FnScope f look τ mod C s0 s) : C ≠ mod := by
  intro e
  have := h.at_.len.2
  rw [e] at this; omega

/-- The lookups do not change. -/
theorem FnScope.names_step (h : FnScope f look τ mod C s0 s) (g : FStep (fun c => c = C) s s') :
    ∀ n v, look n = some v → ∃ k, Pyv.resOf s'.terms mod n = some k ∧ τ.sig k = some v := by
  rw [g.resOf h.inv.modHas (fun e => h.ne e.symm)]
  exact h.names

/-- Steps elsewhere. -/
theorem FnScope.away (h : FnScope f look τ mod C s0 s) (g : FStep (fun _ => False) s s') (hI : FnInv mod s') : FnScope f look τ mod C s0 s' := by
  have g' : FStep (fun c => c = C) s s' := g.mono (fun _ h => h.elim)
  have hno : ∀ n, InScope (fun _ => False) n → False := fun n ⟨_, _, _, h⟩ => h
  refine ⟨hI, h.at_.step_of g', g.hasF h.has, ?_, ?_, h.names_step g', fun n hn => g.hasT (h.old n hn), h.nothing⟩
  · intro n hn
    rw [g.keepsScope h.has id] at hn
    exact h.only n hn
  · intro n w t hw ht
    have hh := hasOfGet ht
    rw [g.keepsScope h.has id] at hh
    obtain ⟨t', ht'⟩ := get_some_of_has hh
    rcases g.terms _ _ ht' with h1 | h1
    · rw [ht] at h1; cases h1
      exact h.dec n w _ hw ht'
    · exact (hno _ h1.1).elim

/-- Expressions without variables of the function. -/
theorem FnScope.free (h : FnScope f look τ mod C s0 s) (ha : ∀ n, τ.arr n = none) {e : Ex} (he : e.flat = true)
    (hn : e.allNames (fun n => decide (n ∉ f.names) && userName n) = true) {v t} (hv : plainVal look e = some v) (ht : s.makeDF e C = .ok t) : sem τ t = some v := by
  refine (h.at_.quiet h.inv).df ha he ht (plain_ex ha (Q := fun n => decide (n ∉ f.names) && userName n) ?_ e hn v hv)
  intro n v hq hl
  simp only [Bool.and_eq_true, decide_eq_true_eq] at hq
  obtain ⟨k, h1, h2⟩ := h.names n v hl
  refine ⟨k, ?_, h2⟩
  unfold resIn
  split
  · next hc =>
    rcases h.only n hc with h' | h'
    · exact absurd h' hq.1
    · rw [hq.2] at h'; cases h'
  · exact h1

/-! ### Declarations -/

theorem addTermC_get (s : BV) (c : ScopeChain) (t : Term) (k : ScopeChain) : ((DataFlow.mk s.terms []).addTerm c t).terms.get? k =
    if c = k then some (match s.terms.get? c with | none => t | some old => old.merge t) else s.terms.get? k := by
  unfold DataFlow.addTerm
  simp only
  cases h : s.terms.get? c <;> simp only [Dict.get?_set]

theorem sem_orElse {x y : DF} {v} (h : sem τ x = some v) : x.orElse y = x := by
  unfold DF.orElse
  rw [if_neg]
  rintro rfl
  simp [sem] at h

theorem decl_fn (h : FnScope f look τ mod C s0 s) (ha : ∀ n, τ.arr n = none) (hcur : s.current = C) (hnd : f.names.Nodup) {n : Str} {w : Option WRange}
    (hw : (n, w) ∈ f.vars) (hok : f.rangeOK w = true) (hs : s.addFuncTerm n w none = .ok s') :
    FnScope f look τ mod C s0 s' ∧ FStep (fun c => c = C) s s' ∧ s'.current = C ∧ s'.terms.has (C ++ [⟨n, .signal, none⟩]) = true ∧
    (∀ k, s.getBindlist k = s'.getBindlist k) ∧ ∀ rest, Sol τ C s0 s' rest → Sol τ C s0 s rest := by
  simp only [BV.addFuncTerm, BV.addTerm, bind_ok, hcur, ok_bind, ok_inj] at hs
  obtain ⟨m, hm, l, hl, hs⟩ := hs
  have hbnd : BndOK τ look ⟨C ++ [⟨n, .signal, none⟩], [.function], m, l, none⟩ w := by
    intro r hr
    cases w with
    | none =>
      simp only [rangeVal, Option.some.injEq] at hr
      simp only [ok_inj] at hm hl
      subst hr hm hl
      have h0 : sem τ (.intc ['0']) = some (0, 32) := by rfl
      exact ⟨_, _, h0, rfl, h0, rfl⟩
    | some q =>
      simp only [rangeVal, Option.bind_eq_bind, Option.bind_eq_some_iff, Option.some.injEq] at hr
      obtain ⟨a, ha', b, hb', rfl⟩ := hr
      simp only [Func.rangeOK, Bool.and_eq_true] at hok
      exact ⟨a, b, h.free ha hok.1.1.1 hok.1.2 ha' hm, rfl, h.free ha hok.1.1.2 hok.2 hb' hl, rfl⟩
  have hget := addTermC_get s (C ++ [⟨n, .signal, none⟩]) ⟨C ++ [⟨n, .signal, none⟩], [.function], m, l, none⟩
  generalize hT : ((DataFlow.mk s.terms []).addTerm (C ++ [⟨n, .signal, none⟩]) ⟨C ++ [⟨n, .signal, none⟩], [.function], m, l, none⟩).terms = T at *
  have ht : s'.terms = T := by rw [← hs]
  have hb : s'.binds = s.binds := by rw [← hs]
  have ho : s'.objs = s.objs := by rw [← hs]
  have hf : s'.frames = s.frames := by rw [← hs]
  have hr : s'.noreorder = s.noreorder := by rw [← hs]
  have hc : s'.current = C := by rw [← hs]
  clear hs
  rw [← ht] at hget
  have hlist : ∀ k, s.getBindlist k = s'.getBindlist k := by intro k; simp only [BV.getBindlist, BV.deref, hb, ho]
  have hmono : ∀ k, s.terms.has k = true → s'.terms.has k = true := by
    intro k hk
    rw [Dict.has_eq, hget]
    split
    · rfl
    · rw [← Dict.has_eq]; exact hk
  have hnew : s'.terms.has (C ++ [⟨n, .signal, none⟩]) = true := by rw [Dict.has_eq, hget, if_pos rfl]; rfl
  have hfresh : ∀ k, s'.terms.has k = true → s.terms.has k = true ∨ k = C ++ [⟨n, .signal, none⟩] := by
    intro k hk
    rw [Dict.has_eq, hget] at hk
    split at hk
    · next e => exact .inr e.symm
    · rw [← Dict.has_eq] at hk; exact .inl hk
  -- the bounds of a declared variable stay
  have hmerge : ∀ k t, s.terms.get? k = some t → ∃ t', s'.terms.get? k = some t' ∧ t'.types.contains .genvar = false ∧ t'.dims = none ∧
      (∀ v, sem τ t.msb = some v → t'.msb = t.msb) ∧ (∀ v, sem τ t.lsb = some v → t'.lsb = t.lsb) := by
    intro k t hk
    by_cases e : C ++ [⟨n, .signal, none⟩] = k
    · refine ⟨t.merge ⟨C ++ [⟨n, .signal, none⟩], [.function], m, l, none⟩, ?_, ?_, ?_, fun v hv => ?_, fun v hv => ?_⟩
      · rw [hget, if_pos e, e, hk]
      · have := (h.inv.plain k t hk).1
        simp only [Term.merge, setUnion, List.contains_eq_mem, List.mem_append, decide_eq_false_iff_not, not_or] at this ⊢
        refine ⟨this, ?_⟩
        simp [List.mem_filter]
      · simp [Term.merge, (h.inv.plain k t hk).2]
      · exact sem_orElse hv
      · exact sem_orElse hv
    · exact ⟨t, by rw [hget, if_neg e]; exact hk, (h.inv.plain k t hk).1, (h.inv.plain k t hk).2, fun _ _ => rfl, fun _ _ => rfl⟩
  have hstep : FStep (fun c => c = C) s s' := by
    refine ⟨fun c f hf' => ⟨f.blocking, by rw [hf]; exact hf'⟩, fun k t hk => ?_, fun k hk => ?_, fun k _ => .inl (hlist k).symm⟩
    · by_cases e : C ++ [⟨n, .signal, none⟩] = k
      · exact .inr ⟨⟨C, _, e.symm, rfl⟩, hmono k (hasOfGet hk)⟩
      · exact .inl (by rw [hget, if_neg e]; exact hk)
    · rcases hfresh k hk with h' | h'
      · exact .inl h'
      · exact .inr (.inl ⟨C, _, h', rfl⟩)
  have hinv : FnInv mod s' := by
    refine ⟨h.inv.ne, ?_, by rw [hr]; exact h.inv.nore, ?_, ?_, ?_, ?_, ?_⟩
    · simpa [isModFrame, hf] using h.inv.modf
    · have := h.inv.objs
      simp only [BV.Objs] at this ⊢
      rw [hb, ho]; exact this
    · intro k ids hk
      rw [hb] at hk
      exact hmono k (h.inv.keys k ids hk)
    · intro c k hk
      rw [hf]
      rcases hfresh _ hk with h' | h'
      · exact h.inv.home c k h'
      · obtain ⟨rfl, _⟩ := snoc_inj h'; exact h.has
    · intro k t hk
      by_cases hh : s.terms.has k = true
      · obtain ⟨t0, ht0⟩ := get_some_of_has hh
        obtain ⟨t', h1, h2, h3, _⟩ := hmerge k t0 ht0
        rw [hk] at h1; cases h1
        exact ⟨h2, h3⟩
      · rcases hfresh k (hasOfGet hk) with h' | h'
        · exact absurd h' hh
        · rw [h'] at hk hh
          rw [hget, if_pos rfl, get_none_of_has (by simpa using hh)] at hk
          cases hk
          exact ⟨rfl, rfl⟩
    · rw [hf, ho]; exact h.inv.blk
  refine ⟨⟨hinv, h.at_.step_of hstep, hstep.hasF h.has, ?_, ?_, h.names_step hstep, fun k hk => hmono k (h.old k hk), h.nothing⟩, hstep, hc, hnew, hlist, ?_⟩
  · intro k hk
    rcases hfresh _ hk with h' | h'
    · exact h.only k h'
    · obtain ⟨_, h'⟩ := snoc_inj h'
      simp only [ScopeLabel.mk.injEq, and_true] at h'
      subst h'
      exact .inl (List.mem_map.mpr ⟨_, hw, rfl⟩)
  · intro k w' t hw' ht'
    by_cases hh : s.terms.has (C ++ [⟨k, .signal, none⟩]) = true
    · obtain ⟨t0, ht0⟩ := get_some_of_has hh
      obtain ⟨t', h1, _, _, h2, h3⟩ := hmerge _ t0 ht0
      rw [ht'] at h1; cases h1
      intro r hr
      obtain ⟨a, b, g1, g2, g3, g4⟩ := h.dec k w' t0 hw' ht0 r hr
      exact ⟨a, b, by rw [h2 a g1]; exact g1, g2, by rw [h3 b g3]; exact g3, g4⟩
    · rcases hfresh _ (hasOfGet ht') with h' | h'
      · exact absurd h' hh
      · obtain ⟨_, h'⟩ := snoc_inj h'
        simp only [ScopeLabel.mk.injEq, and_true] at h'
        subst h'
        rw [hget, if_pos rfl, get_none_of_has (by simpa using hh)] at ht'
        cases ht'
        have : w' = w := by
          have := List.inj_on_of_nodup_map hnd hw' hw rfl
          exact (Prod.mk.inj this).2
        rw [this]; exact hbnd
  · intro rest g k t hk ht' hr b hb' hwh m' l' v hm' hl' hv
    obtain ⟨t', h1, _, _, h2, h3⟩ := hmerge k t ht'
    exact g k t' hk h1 hr b (by rw [← hlist]; exact hb') hwh m' l' v (by rw [h2 _ hm']; exact hm') (by rw [h3 _ hl']; exact hl') hv

/-- What declarations leave. -/
structure Declared (f : Func) (look : Vals) (τ : Env) (mod C : ScopeChain) (s0 s s' : BV) : Prop where
  scope : FnScope f look τ mod C s0 s'
  step : FStep (fun c => c = C) s s'
  cur : s'.current = C
  lists : ∀ k, s.getBindlist k = s'.getBindlist k
  back : ∀ rest, Sol τ C s0 s' rest → Sol τ C s0 s rest

theorem Declared.trans {s1 : BV} (h : Declared f look τ mod C s0 s s1) (g : Declared f look τ mod C s0 s1 s') : Declared f look τ mod C s0 s s' :=
  ⟨g.scope, h.step.trans g.step, g.cur, fun k => (h.lists k).trans (g.lists k), fun rest hs => h.back rest (g.back rest hs)⟩

theorem Func.coveredS (h : f.covered = true) : f.names.Nodup ∧ (∀ v ∈ f.vars, f.rangeOK v.2 = true) ∧
    (∀ d ∈ f.items, (∃ v, d = .var v ∧ v.dims = none) ∨ ∃ n x, d = .int n x) ∧ ∃ as, f.body.steps = some as ∧ f.stepsOK as = true := by
  simp only [Func.covered, Bool.and_eq_true, decide_eq_true_eq, List.all_eq_true] at h
  obtain ⟨⟨⟨h1, h2⟩, h3⟩, h4⟩ := h
  refine ⟨h2, h3, ?_, ?_⟩
  · intro d hd
    have := h1 d hd
    split at this
    · next v => exact .inl ⟨v, rfl, by simpa using this⟩
    · next n x => exact .inr ⟨n, x, rfl⟩
    · cases this
  · split at h4
    · next as ha => exact ⟨as, ha, h4⟩
    · cases h4

theorem Func.var_mem {v : Var} (h : DItem.var v ∈ f.items) : (v.name, v.width) ∈ f.vars := by
  simp only [Func.vars, List.mem_cons, List.mem_filterMap]
  exact .inr ⟨_, h, rfl⟩

theorem Func.int_mem {n x} (h : DItem.int n x ∈ f.items) : (n, some (.intc "31".toList, .intc ['0'])) ∈ f.vars := by
  simp only [Func.vars, List.mem_cons, List.mem_filterMap]
  exact .inr ⟨_, h, rfl⟩

theorem items_fn (hcov : f.covered = true) (ha : ∀ n, τ.arr n = none) : ∀ (ds : List DItem), (∀ d ∈ ds, d ∈ f.items) → ∀ s s', FnScope f look τ mod C s0 s →
    s.current = C → ds.foldlM BV.visitFuncItem s = .ok s' →
    Declared f look τ mod C s0 s s' ∧ (∀ v, DItem.var v ∈ ds → s'.terms.has (C ++ [⟨v.name, .signal, none⟩]) = true) ∧
    ∀ n x, DItem.int n x ∈ ds → s'.terms.has (C ++ [⟨n, .signal, none⟩]) = true := by
  obtain ⟨hnd, hrg, hit, _⟩ := Func.coveredS hcov
  intro ds
  induction ds with
  | nil =>
    intro _ s s' hs hcur h
    simp only [List.foldlM_nil, py_pure, ok_inj] at h
    subst h
    exact ⟨⟨hs, .refl _ _, hcur, fun _ => rfl, fun _ h => h⟩, by simp, by simp⟩
  | cons d ds ih =>
    intro hd s s' hs hcur h
    simp only [List.foldlM_cons, bind_ok] at h
    obtain ⟨s1, h1, h⟩ := h
    have hd0 := hd d (by simp)
    have key : Declared f look τ mod C s0 s s1 ∧ (∀ v, d = .var v → s1.terms.has (C ++ [⟨v.name, .signal, none⟩]) = true) ∧
        ∀ n x, d = .int n x → s1.terms.has (C ++ [⟨n, .signal, none⟩]) = true := by
      rcases hit d hd0 with ⟨v, rfl, hv⟩ | ⟨n, x, rfl⟩
      · simp only [BV.visitFuncItem, hv] at h1
        obtain ⟨g1, g2, g3, g4, g5, g6⟩ := decl_fn hs ha hcur hnd (Func.var_mem hd0) (hrg _ (Func.var_mem hd0)) h1
        exact ⟨⟨g1, g2, g3, g5, g6⟩, fun v' e => by cases e; exact g4, fun _ _ e => by cases e⟩
      · simp only [BV.visitFuncItem] at h1
        obtain ⟨g1, g2, g3, g4, g5, g6⟩ := decl_fn hs ha hcur hnd (Func.int_mem hd0) (hrg _ (Func.int_mem hd0)) h1
        exact ⟨⟨g1, g2, g3, g5, g6⟩, fun v' e => (by cases e), fun _ _ e => (by cases e; exact g4)⟩
    obtain ⟨k1, k2, k3⟩ := key
    obtain ⟨i1, i2, i3⟩ := ih (fun d' h' => hd d' (by simp [h'])) s1 s' k1.scope k1.cur h
    refine ⟨k1.trans i1, ?_, ?_⟩
    · intro v hv
      rcases List.mem_cons.mp hv with e | e
      · exact i1.step.hasT (k2 v e.symm)
      · exact i2 v e
    · intro n x hv
      rcases List.mem_cons.mp hv with e | e
      · exact i1.step.hasT (k3 n x e.symm)
      · exact i3 n x e

theorem ports_fn (hcov : f.covered = true) (ha : ∀ n, τ.arr n = none) : ∀ (ps : List Var), (∀ p ∈ ps, DItem.var p ∈ f.items) → ∀ s s', FnScope f look τ mod C s0 s →
    s.current = C → ps.foldlM (fun st p => st.addFuncTerm p.name p.width none) s = .ok s' →
    Declared f look τ mod C s0 s s' ∧ ∀ p ∈ ps, s'.terms.has (C ++ [⟨p.name, .signal, none⟩]) = true := by
  obtain ⟨hnd, hrg, hit, _⟩ := Func.coveredS hcov
  intro ps
  induction ps with
  | nil =>
    intro _ s s' hs hcur h
    simp only [List.foldlM_nil, py_pure, ok_inj] at h
    subst h
    exact ⟨⟨hs, .refl _ _, hcur, fun _ => rfl, fun _ h => h⟩, by simp⟩
  | cons p ps ih =>
    intro hd s s' hs hcur h
    simp only [List.foldlM_cons, bind_ok] at h
    obtain ⟨s1, h1, h⟩ := h
    have hd0 := hd p (by simp)
    obtain ⟨g1, g2, g3, g4, g5, g6⟩ := decl_fn hs ha hcur hnd (Func.var_mem hd0) (hrg _ (Func.var_mem hd0)) h1
    obtain ⟨i1, i2⟩ := ih (fun d' h' => hd d' (by simp [h'])) s1 s' g1 g3 h
    refine ⟨Declared.trans ⟨g1, g2, g3, g5, g6⟩ i1, ?_⟩
    intro q hq
    rcases List.mem_cons.mp hq with rfl | e
    · exact i1.step.hasT g4
    · exact i2 q e

/-! ### The body -/

/-- The variables hold the values `η`, those in `rest` aside. -/
def Agree (f : Func) (τ : Env) (C : ScopeChain) (η : Vals) (rest : List Str) : Prop :=
  ∀ n v, n ∈ f.names → n ∉ rest → η n = some v → τ.sig (C ++ [⟨n, .signal, none⟩]) = some v

/-- What a part of the body with the assignments `as` leaves. -/
structure Ran (f : Func) (look : Vals) (τ : Env) (mod C c : ScopeChain) (s0 s s' : BV) (as more : List (Str × Ex)) : Prop where
  scope : FnScope f look τ mod C s0 s'
  step : FStep (fun c => c = C) s s'
  cur : s'.current = c
  back : ∀ rest, Sol τ C s0 s' rest → Sol τ C s0 s (as.map (·.1) ++ rest)
  run : ∀ η, Sol τ C s0 s' (more.map (·.1)) → Agree f τ C η ((as ++ more).map (·.1)) → Agree f τ C (f.run look as η) (more.map (·.1))

theorem run_append (a b : List (Str × Ex)) (η : Vals) : f.run look (a ++ b) η = f.run look b (f.run look a η) := by
  induction a generalizing η with
  | nil => rfl
  | cons x a ih => obtain ⟨x, e⟩ := x; simp only [List.cons_append, Func.run]; exact ih _

theorem stepsOK_tail {a b : List (Str × Ex)} (h : f.stepsOK (a ++ b) = true) : f.stepsOK b = true := by
  induction a with
  | nil => exact h
  | cons x a ih =>
    obtain ⟨x, e⟩ := x
    simp only [List.cons_append, Func.stepsOK, Bool.and_eq_true] at h
    exact ih h.2

theorem inputs_eq : f.inputs = f.ports.map (·.name) := by
  simp only [Func.inputs, Func.ports]
  induction f.items with
  | nil => rfl
  | cons d ds ih =>
    rw [List.flatMap_cons, ih]
    cases d with
    | var v =>
      by_cases hk : v.kind = .input
      · simp [hk]
      · simp [hk]
    | _ => simp

theorem stepsOK_names {a : List (Str × Ex)} (h : f.stepsOK a = true) : ∀ y ∈ a.map (·.1), y ∈ f.names ∧ y ∉ f.ports.map (·.name) := by
  induction a with
  | nil => simp
  | cons x a ih =>
    obtain ⟨x, e⟩ := x
    simp only [Func.stepsOK, Bool.and_eq_true, decide_eq_true_eq, inputs_eq] at h
    intro y hy
    simp only [List.map_cons, List.mem_cons] at hy
    rcases hy with rfl | hy
    · exact ⟨h.1.1.1.1, h.1.1.1.2⟩
    · exact ih h.2 y hy

theorem fitR_idem (m l : Int) (v : Int × Int) : fitR m l (fitR m l v) = fitR m l v := by
  simp [fitR]

theorem lookup_of_mem {vs : List (Str × Option WRange)} {x : Str} {w} (h : vs.lookup x = some w) : (x, w) ∈ vs := by
  induction vs with
  | nil => simp at h
  | cons a vs ih =>
    obtain ⟨y, w'⟩ := a
    simp only [List.lookup] at h
    split at h
    · next e => simp only [beq_iff_eq] at e; cases h; subst e; simp
    · simp [ih h]

/-- One assignment. -/
theorem ran_ba (hS : FnScope f look τ mod C s0 s) (ha : ∀ n, τ.arr n = none) {c : ScopeChain} (hc : FnAt mod C s c) (hcur : s.current = c)
    (hall : ∀ n ∈ f.names, s.terms.has (C ++ [⟨n, .signal, none⟩]) = true) {x : Str} {e : Ex} {more : List (Str × Ex)} (hok : f.stepsOK ((x, e) :: more) = true)
    (h : (Stmt.ba (.ident [] x) e).visit s = .ok s') : Ran f look τ mod C c s0 s s' [(x, e)] more := by
  have hmore := stepsOK_names (stepsOK_tail (a := [(x, e)]) hok)
  simp only [Func.stepsOK, Bool.and_eq_true, decide_eq_true_eq] at hok
  obtain ⟨⟨⟨⟨hx, -⟩, hflat⟩, hnm⟩, hok'⟩ := hok
  obtain ⟨t, ht⟩ := get_some_of_has (hall x hx)
  obtain ⟨raw, hraw, hA⟩ := assign_fn hS.inv hc hcur hS.has ht h
  obtain ⟨nm, hu, hno, hnew, hterms, ⟨b1, hb1, hw1, htr1⟩, ⟨b2, hb2, hw2, htr2⟩, hlists⟩ := hA.new
  have hxt : s'.terms.get? (C ++ [⟨x, .signal, none⟩]) = some t := by
    rw [hterms, ht]
    intro e; rw [← e, hasOfGet ht] at hno; cases hno
  have hnmx : ∀ y ∈ f.names, C ++ [⟨nm, .signal, none⟩] ≠ C ++ [⟨y, .signal, none⟩] := by
    intro y hy e
    rw [e, hall y hy] at hno; cases hno
  refine ⟨⟨hA.inv, hS.at_.step_of hA.step, hA.step.hasF hS.has, ?_, ?_, hS.names_step hA.step, fun n hn => hA.step.hasT (hS.old n hn), hS.nothing⟩,
    hA.step, hA.cur.trans hcur, ?_, ?_⟩
  · intro n hn
    by_cases e' : C ++ [⟨n, .signal, none⟩] = C ++ [⟨nm, .signal, none⟩]
    · obtain ⟨_, e'⟩ := snoc_inj e'
      simp only [ScopeLabel.mk.injEq, and_true] at e'
      subst e'; exact .inr hu
    · rw [Dict.has_eq, hterms _ e', ← Dict.has_eq] at hn
      exact hS.only n hn
  · intro n w t' hw ht'
    rw [hterms] at ht'
    · exact hS.dec n w t' hw ht'
    · exact (hnmx n (List.mem_map.mpr ⟨_, hw, rfl⟩)).symm
  · intro rest g n t' hn ht' hr b hb hw m l v hm hl hv
    refine g n t' hn ?_ (fun y hy => hr y (by simp [hy])) b ?_ hw m l v hm hl hv
    · rw [hterms, ht']
      rintro rfl; rw [hasOfGet ht'] at hno; cases hno
    · rw [hlists n (hasOfGet ht') (hr x (by simp))]; exact hb
  · intro η g hη n v hn hnm' hv
    simp only [Func.run] at hv
    split at hv
    · next e' =>
      subst e'
      simp only [Option.bind_eq_some_iff] at hv
      obtain ⟨u, hu', hv⟩ := hv
      simp only [Func.hold, Option.bind_eq_bind, Option.bind_eq_some_iff, Option.some.injEq] at hv
      obtain ⟨w, hw, r, hr, rfl⟩ := hv
      obtain ⟨a, b, q1, q2, q3, q4⟩ := hS.dec n w t (lookup_of_mem hw) ht r hr
      have hsem : sem τ raw = some u := by
        refine (hc.quiet hS.inv).tree ha hflat hraw (plain_ex ha ?_ e hnm u hu')
        intro k z hq hz
        simp only [Func.see] at hz
        split at hq
        · next hk =>
          rw [if_pos hk] at hz
          simp only [ne_eq, decide_eq_true_eq] at hq
          refine ⟨C ++ [⟨k, .signal, none⟩], by rw [resIn, if_pos (hall k hk)], hη k z hk ?_ hz⟩
          simp only [List.cons_append, List.nil_append, List.map_cons, List.mem_cons, not_or]
          exact hq
        · next hk =>
          rw [if_neg hk] at hz
          obtain ⟨k', g1, g2⟩ := hS.names k z hz
          refine ⟨k', ?_, g2⟩
          rw [resIn, if_neg]
          · exact g1
          · intro hh
            rcases hS.only k hh with h' | h'
            · exact hk h'
            · rw [hq] at h'; cases h'
      have e1 : τ.sig (C ++ [⟨nm, .signal, none⟩]) = some (fitR a.1 b.1 u) :=
        g _ _ (hS.nothing _) hnew (fun y hy => hnmx y (hmore y hy).1) b1 hb1 hw1 a b u q1 q3 (by rw [htr1]; exact hsem)
      have e2 : sem τ b2.tree = some (fitR a.1 b.1 u) :=
        C14_reorder_value τ ((hc.quiet hS.inv).arrays ha).1 _ _ _ htr2 _ (by simp only [sem]; exact e1)
      have e3 := g _ _ (hS.nothing _) hxt (fun y hy e' => ?_) b2 hb2 hw2 a b _ q1 q3 e2
      · rw [e3, fitR_idem, q2, q4]
      · obtain ⟨_, e'⟩ := snoc_inj e'
        simp only [ScopeLabel.mk.injEq, and_true] at e'
        subst e'; exact hnm' hy
    · next e' =>
      refine hη n v hn ?_ hv
      simp only [List.cons_append, List.nil_append, List.map_cons, List.mem_cons, not_or]
      exact ⟨e', hnm'⟩

/-- Statements one after the other. -/
theorem Ran.append {s1 : BV} {c : ScopeChain} {a b more : List (Str × Ex)} (h : Ran f look τ mod C c s0 s s1 a (b ++ more)) (g : Ran f look τ mod C c s0 s1 s' b more) :
    Ran f look τ mod C c s0 s s' (a ++ b) more := by
  refine ⟨g.scope, h.step.trans g.step, g.cur, ?_, ?_⟩
  · intro rest hs
    have := h.back _ (g.back rest hs)
    simpa using this
  · intro η hs hη
    rw [run_append]
    refine g.run _ hs ?_
    have hb := g.back _ hs
    rw [← List.map_append] at hb
    exact h.run η hb (by simpa using hη)

theorem Ran.nil {c : ScopeChain} (hS : FnScope f look τ mod C s0 s) (hcur : s.current = c) (more) : Ran f look τ mod C c s0 s s [] more :=
  ⟨hS, .refl _ _, hcur, fun _ h => by simpa using h, fun η _ h => by simpa [Func.run] using h⟩

theorem blockLabel_same {n : Option Str} {l : Str} (h : s.blockLabel n = .ok (l, s')) : SameT s s' ∧ s'.current = s.current := by
  cases n with
  | some n => simp only [BV.blockLabel, ok_inj, Prod.mk.injEq] at h; obtain ⟨_, rfl⟩ := h; exact ⟨⟨rfl, rfl, rfl, rfl, rfl⟩, rfl⟩
  | none => have := label_sameT h; exact ⟨this.1, this.2.1⟩

/-- The statements of the body. -/
theorem ran_stmt (ha : ∀ n, τ.arr n = none) (st : Stmt) : ∀ (c : ScopeChain) (s s' : BV) (as more : List (Str × Ex)), st.steps = some as →
    f.stepsOK (as ++ more) = true → FnScope f look τ mod C s0 s → FnAt mod C s c → s.current = c →
    (∀ n ∈ f.names, s.terms.has (C ++ [⟨n, .signal, none⟩]) = true) → st.visit s = .ok s' → Ran f look τ mod C c s0 s s' as more := by
  induction st using Stmt.ind with
  | skip =>
    intro c s s' as more has hok hS hc hcur hall h
    simp only [Stmt.steps, Option.some.injEq] at has
    simp only [Stmt.visit, ok_inj] at h
    subst has h
    exact .nil hS hcur more
  | ba l r =>
    intro c s s' as more has hok hS hc hcur hall h
    cases l with
    | ident sc n =>
      cases sc with
      | nil =>
        simp only [Stmt.steps, Option.some.injEq] at has
        subst has
        exact ran_ba hS ha hc hcur hall hok h
      | cons => simp [Stmt.steps] at has
    | _ => simp [Stmt.steps] at has
  | block n ss ih =>
    have hlist : ∀ (ts : List Stmt), (∀ t ∈ ts, t ∈ ss) → ∀ (c : ScopeChain) (s s' : BV) (as more : List (Str × Ex)), Stmt.stepsL ts = some as →
        f.stepsOK (as ++ more) = true → FnScope f look τ mod C s0 s → FnAt mod C s c → s.current = c →
        (∀ n ∈ f.names, s.terms.has (C ++ [⟨n, .signal, none⟩]) = true) → Stmt.visitList ts s = .ok s' → Ran f look τ mod C c s0 s s' as more := by
      intro ts
      induction ts with
      | nil =>
        intro _ c s s' as more has hok hS hc hcur hall h
        simp only [Stmt.stepsL, Option.some.injEq] at has
        simp only [Stmt.visitList, ok_inj] at h
        subst has h
        exact .nil hS hcur more
      | cons t ts iht =>
        intro hm c s s' as more has hok hS hc hcur hall h
        simp only [Stmt.stepsL, Option.bind_eq_bind, Option.bind_eq_some_iff, Option.some.injEq] at has
        obtain ⟨a, ha', b, hb', rfl⟩ := has
        simp only [Stmt.visitList, bind_ok] at h
        obtain ⟨s1, h1, h⟩ := h
        rw [List.append_assoc] at hok
        have r1 := ih t (hm t (by simp)) c s s1 a (b ++ more) ha' hok hS hc hcur hall h1
        have r2 := iht (fun t' h' => hm t' (by simp [h'])) c s1 s' b more hb' (stepsOK_tail hok) r1.scope (hc.step_of r1.step) r1.cur
          (fun n hn => r1.step.hasT (hall n hn)) h
        exact r1.append r2
    intro c s s' as more has hok hS hc hcur hall h
    simp only [Stmt.steps] at has
    simp only [Stmt.visit, Stmt.visitBlock, bind_ok] at h
    obtain ⟨⟨l, s1⟩, hl, s2, hen, s3, hb, fr, hfr, h⟩ := h
    obtain ⟨hsame, hc1⟩ := blockLabel_same hl
    simp only [BV.enter, bind_ok] at hen
    obtain ⟨f0, hf0, hpush⟩ := hen
    obtain ⟨p1, p2, p3, p4, p5, p6, p7, p8⟩ := push_fn (hsame.inv hS.inv) (by simp [Frame.child]) hpush
    rw [hc1, hcur] at p3 p4 p5 p8
    have st2 : FStep (fun _ => False) s s2 := hsame.step.trans p2
    have st2' : FStep (fun c => c = C) s s2 := st2.mono (fun _ h => h.elim)
    have hS2 := hS.away st2 p1
    obtain ⟨fc, hfc, e1, e2, e3⟩ := hc.frame
    have : f0 = fc := by
      rw [hc1, hcur] at hf0
      have := frame_get hf0
      rw [hsame.frames, hfc] at this
      cases this; rfl
    subst this
    have hc2 : FnAt mod C s2 (c ++ [⟨l, .block, none⟩]) :=
      .step c _ _ (hc.step_of st2') p5 rfl rfl (by simpa [Frame.child] using e2) rfl p8
    have r := hlist ss (fun _ h => h) _ s2 s3 as more has hok hS2 hc2 p4 (fun n hn => st2.hasT (hall n hn)) hb
    have hcs : FnAt mod C s3 c := (hc.step_of st2').step_of r.step
    obtain ⟨fc', hfc', e1', e2', e3'⟩ := hcs.frame
    have : fr = fc' := by
      have := frame_get hfr
      rw [hcur] at this
      simp only at this
      rw [hfc'] at this; cases this; rfl
    subst this
    rw [if_neg (by simp [e2'])] at h
    simp only [ok_inj] at h
    subst h
    have same : SameT s3 { s3 with current := s.current } := ⟨rfl, rfl, rfl, rfl, rfl⟩
    refine ⟨r.scope.away same.step (same.inv r.scope.inv), st2'.trans (r.step.trans same.step), hcur, ?_, ?_⟩
    · intro rest hs
      exact Sol.back st2 (r.back rest hs)
    · intro η hs hη
      exact r.run η hs hη
  | nb => intro _ _ _ _ _ h; simp [Stmt.steps] at h
  | ifs => intro _ _ _ _ _ h; simp [Stmt.steps] at h
  | cases => intro _ _ _ _ _ h; simp [Stmt.steps] at h
  | fors => intro _ _ _ _ _ h; simp [Stmt.steps] at h
  | whiles => intro _ _ _ _ _ h; simp [Stmt.steps] at h

end

end Pyv
