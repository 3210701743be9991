import Verif.Props.CallSpec
/-
  C91: places without conditions and without blocking assignments; the states during function calls.
-/
namespace Pyv

/-! ### Values -/

/-- The value of an expression without calls, for a resolution of the names. -/
theorem plain_ex {look : Vals} {τ : Env} (ha : ∀ n, τ.arr n = none) {res : Str → Option ScopeChain} {Q : Str → Bool}
    (hr : ∀ n v, Q n = true → look n = some v → ∃ c, res n = some c ∧ τ.sig c = some v) (e : Ex) :
    e.allNames Q = true → ∀ v, plainVal look e = some v → exVal τ res e = some v := by
  unfold plainVal
  have hl : ∀ (es : List Ex) (_ : ∀ e ∈ es, e.allNames Q = true → ∀ v, fxVal look (fun _ _ => none) e = some v → exVal τ res e = some v)
      (_ : Ex.allNamesL Q es = true) vs, fxValL look (fun _ _ => none) es = some vs → exValL τ res es = some vs := by
    intro es
    induction es with
    | nil => intro _ _ vs h; simpa [fxValL, exValL] using h
    | cons e es ih =>
      intro hh hq vs h
      simp only [Ex.allNamesL, Bool.and_eq_true] at hq
      simp only [fxValL, exValL, Option.bind_eq_bind, Option.bind_eq_some_iff] at h ⊢
      obtain ⟨x, hx, xs, hxs, h⟩ := h
      exact ⟨x, hh e (by simp) hq.1 x hx, xs, ih (fun e he => hh e (by simp [he])) hq.2 xs hxs, h⟩
  induction e using Ex.ind with
  | ident s n =>
    intro hq v h
    cases s with
    | cons a as => simp [fxVal] at h
    | nil =>
      simp only [Ex.allNames] at hq
      simp only [fxVal] at h
      obtain ⟨c, h1, h2⟩ := hr n v hq h
      simp [exVal, h1, h2]
  | intc s => intro _ v h; simpa [exVal, fxVal, constVal, sem] using h
  | fltc s => intro _ v h; simp [fxVal] at h
  | strc s => intro _ v h; simp [fxVal] at h
  | uplus e ih => intro hq v h; simp only [exVal, fxVal] at h ⊢; exact ih (by simpa [Ex.allNames] using hq) v h
  | un o e ih =>
    intro hq v h
    simp only [Ex.allNames] at hq
    simp only [exVal, fxVal, Option.bind_eq_bind, Option.bind_eq_some_iff] at h ⊢
    obtain ⟨x, hx, h⟩ := h
    exact ⟨x, ih hq x hx, h⟩
  | bin o a b iha ihb =>
    intro hq v h
    simp only [Ex.allNames, Bool.and_eq_true] at hq
    simp only [exVal, fxVal, Option.bind_eq_bind, Option.bind_eq_some_iff] at h ⊢
    obtain ⟨x, hx, y, hy, h⟩ := h
    exact ⟨x, iha hq.1 x hx, y, ihb hq.2 y hy, h⟩
  | cond c t f ihc iht ihf =>
    intro hq v h
    simp only [Ex.allNames, Bool.and_eq_true] at hq
    simp only [exVal, fxVal, Option.bind_eq_bind, Option.bind_eq_some_iff] at h ⊢
    obtain ⟨b, hb, h⟩ := h
    refine ⟨b, ihc hq.1.1 b hb, ?_⟩
    split
    · rename_i e; rw [if_pos e] at h; exact iht hq.1.2 v h
    · rename_i e; rw [if_neg e] at h; exact ihf hq.2 v h
  | psel w m l ihv ihm ihl =>
    intro hq v h
    simp only [Ex.allNames, Bool.and_eq_true] at hq
    simp only [exVal, fxVal, Option.bind_eq_bind, Option.bind_eq_some_iff] at h ⊢
    obtain ⟨x, hx, a, ha', b, hb, h⟩ := h
    exact ⟨x, ihv hq.1.1 x hx, a, ihm hq.1.2 a ha', b, ihl hq.2 b hb, h⟩
  | ptr w p ihv ihp =>
    intro hq v h
    simp only [Ex.allNames, Bool.and_eq_true] at hq
    simp only [exVal, fxVal, Option.bind_eq_bind, Option.bind_eq_some_iff] at h ⊢
    obtain ⟨i, hi, x, hx, h⟩ := h
    refine ⟨i, ihp hq.2 i hi, ?_⟩
    have hw := ihv hq.1 x hx
    simp only [indexVal, ha]
    generalize (match w with | .ident [] n => res n | _ => none) = o
    cases o <;> simp [hw, h, ha]
  | concat es ih =>
    intro hq v h
    simp only [Ex.allNames] at hq
    simp only [exVal, fxVal, Option.bind_eq_bind, Option.bind_eq_some_iff] at h ⊢
    obtain ⟨xs, hxs, h⟩ := h
    exact ⟨xs, hl es ih hq xs hxs, h⟩
  | rep t w iht ihw =>
    intro hq v h
    simp only [Ex.allNames, Bool.and_eq_true] at hq
    simp only [exVal, fxVal, Option.bind_eq_bind, Option.bind_eq_some_iff] at h ⊢
    obtain ⟨n, hn, x, hx, h⟩ := h
    exact ⟨n, iht hq.1 n hn, x, ihw hq.2 x hx, h⟩
  | call f es _ =>
    intro _ v h
    simp only [fxVal, Option.bind_eq_bind, Option.bind_eq_some_iff] at h
    obtain ⟨_, _, h⟩ := h
    cases h
  | sys f es ih =>
    intro hq v h
    rw [fxVal.eq_def] at h
    rw [exVal.eq_def]
    simp only at h ⊢
    split at h
    · rename_i hf
      rw [if_pos hf]
      cases es with
      | nil => cases h
      | cons e es =>
        simp only [Ex.allNames, Ex.allNamesL, Bool.and_eq_true] at hq
        exact ih e (by simp) hq.1 v h
    · cases h

/-! ### Quiet places -/

/-- A place without conditions and blocking assignments around it, in which the names stand for `res`. -/
structure Quiet (s : BV) (c : ScopeChain) (res : Str → Option ScopeChain) : Prop where
  nore : s.noreorder = false
  terms : ∀ n t, s.terms.get? n = some t → t.types.contains .genvar = false ∧ t.dims = none
  search : ∀ n, s.searchTerminal n c = .ok (res n)
  block : ∀ n k bs, s.getBlockingAssign n k c = .ok bs → bs = []
  path : ∀ p, s.path c = .ok p → p = []

/-- The lookups in a quiet place. -/
def BV.quietE (s : BV) (res : Str → Option ScopeChain) : ExprEnv where
  find n := .ok (res n)
  hier _ _ := .error .unmodelled
  dims := s.hasDims
  times t := match t with
    | .intc l => do let v ← s.opt (.intc l); v.intAttr
    | _ => .error .unmodelled

section
variable {s : BV} {c : ScopeChain} {res : Str → Option ScopeChain} {τ : Env}

theorem Quiet.arrays (hq : Quiet s c res) (ha : ∀ n, τ.arr n = none) : s.ArraysAgree τ := by
  refine ⟨fun n f hn => by simp [ha] at hn, fun k t hk => ?_⟩
  simp [(hq.terms k t hk).2, ha]

theorem quietE_agrees (h : s.ArraysAgree τ) : (s.quietE res).Agrees τ res := by
  refine ⟨?_, ?_, ?_⟩
  · intro n c hc
    simpa [BV.quietE] using hc
  · intro c b hb
    exact hasDims_agree h hb
  · intro t n v hn hv
    simp only [BV.quietE] at hn
    split at hn
    · simp only [bind_ok] at hn
      obtain ⟨r, hr, hn⟩ := hn
      exact opt_intc hr hn hv
    · cases hn

theorem Quiet.resolve {path : ScopeChain → Py CondPath} (hm : Quiet s c res) {t r}
    (hr : (s.resEnv path c).resolve t = .ok r) : s.flatR.resolve t = .ok r := by
  refine resolve_mono (R := s.resEnv path c) (R' := s.flatR) ?_ (fun _ _ h => h) ?_ t r hr
  · intro n r hr
    simp only [BV.resEnv, bind_ok] at hr
    obtain ⟨g, hg, hr⟩ := hr
    have : g = false := by
      simp only [BV.isGenvar] at hg
      split at hg
      · cases hg
      · rename_i t ht; cases hg; exact (hm.terms _ _ ht).1
    subst this
    simp only [Bool.false_eq_true, if_false, bind_ok] at hr
    obtain ⟨bs, hbs, hr⟩ := hr
    rw [hm.block n _ _ hbs] at hr
    simpa [BV.flatR] using hr
  · intro n r hr
    rw [hm.block n _ _ hr]
    rfl

/-- The number of copies in a replication. -/
theorem Quiet.times {path : ScopeChain → Py CondPath} (hm : Quiet s c res) {l : Str} {n : Int} {v}
    (hn : s.timesOf path c (.intc l) = .ok n) (hv : sem τ (.intc l) = some v) : v.1 = n := by
  simp only [BV.timesOf, bind_ok, hm.nore, Bool.false_eq_true, if_false] at hn
  obtain ⟨u, hu, u', hu', w, hw, hr⟩ := hn
  simp only [ResEnv.resolve, ok_inj] at hu
  subst hu
  have : u' = .intc l := reorder_nf_id (by simp [nf]) _ _ hu'
  subst this
  exact opt_intc hw hr hv

theorem Quiet.makeDF {path : ScopeChain → Py CondPath} (hm : Quiet s c res) {e t} (he : e.flat = true)
    (hr : (s.exprEnv (s.timesOf path c) c).makeDF e = .ok t) : (s.quietE res).makeDF e = .ok t := by
  refine makeDF_mono (E := s.exprEnv (s.timesOf path c) c) (E' := s.quietE res) ?_ (fun _ _ h => h) ?_ e he t hr
  · intro n r hr
    simp only [BV.exprEnv, hm.search] at hr
    exact hr
  · intro l r hr
    simp only [BV.exprEnv, BV.timesOf, bind_ok, hm.nore, Bool.false_eq_true, if_false] at hr
    obtain ⟨u, hu, u', hu', w, hw, hr⟩ := hr
    simp only [ResEnv.resolve, ok_inj] at hu
    subst hu
    have : u' = .intc l := reorder_nf_id (by simp [nf]) _ _ hu'
    subst this
    simp [BV.quietE, hw, ok_bind, hr]

/-- Converted expressions keep their values. -/
theorem Quiet.df (hm : Quiet s c res) (ha : ∀ n, τ.arr n = none) {e t v} (he : e.flat = true)
    (hr : s.makeDF e c = .ok t) (hv : exVal τ res e = some v) : sem τ t = some v :=
  C57_expression_value τ (hm.arrays ha).1 _ _ (quietE_agrees (hm.arrays ha)) e t v (hm.makeDF he hr) hv

/-- So do resolved trees. -/
theorem Quiet.finish (hm : Quiet s c res) (ha : ∀ n, τ.arr n = none) {t r v}
    (hr : s.finishTree t c = .ok r) (hv : sem τ t = some v) : sem τ r = some v := by
  simp only [BV.finishTree, hm.nore, Bool.false_eq_true, if_false, bind_ok] at hr
  obtain ⟨u, hu, hr⟩ := hr
  have h := hm.arrays ha
  have h2 := C57_substitution_value τ τ h.1 h.1 _ (flatR_agrees h) t u v (hm.resolve hu) hv
  exact C14_reorder_value τ h.1 _ _ _ hr v h2

theorem Quiet.tree (hm : Quiet s c res) (ha : ∀ n, τ.arr n = none) {e r v} (he : e.flat = true)
    (hr : s.getTree e c = .ok r) (hv : exVal τ res e = some v) : sem τ r = some v := by
  simp only [BV.getTree, bind_ok] at hr
  obtain ⟨t, ht, hr⟩ := hr
  refine hm.finish ha (t := t) ?_ (hm.df ha he ht hv)
  simpa [BV.finishTree, bind_ok] using hr

end

/-! ### The states -/

/-- A state of the analysis of the module `mod`. -/
structure FnInv (mod : ScopeChain) (s : BV) : Prop where
  ne : mod ≠ []
  modf : isModFrame s mod
  nore : s.noreorder = false
  objs : s.Objs
  keys : ∀ n ids, s.binds.get? n = some ids → s.terms.has n = true
  home : ∀ c l, s.terms.has (c ++ [l]) = true → s.frames.has c = true
  plain : ∀ n t, s.terms.get? n = some t → t.types.contains .genvar = false ∧ t.dims = none
  blk : ∀ c f, s.frames.get? c = some f → ∀ n ids, f.blocking.get? n = some ids → ∀ i ∈ ids, ∃ b, s.objs[i]? = some b ∧ b.dest = n

/-- The signal is one of a scope in `P`. -/
def InScope (P : ScopeChain → Prop) (n : ScopeChain) : Prop := ∃ c l, n = c ++ [l] ∧ P c

/-- From `s` to `s'` only signals of the scopes `P` and of new scopes change. -/
structure FStep (P : ScopeChain → Prop) (s s' : BV) : Prop where
  frames : ∀ c f, s.frames.get? c = some f → ∃ bl, s'.frames.get? c = some { f with blocking := bl }
  terms : ∀ n t, s.terms.get? n = some t → s'.terms.get? n = some t ∨ (InScope P n ∧ s'.terms.has n = true)
  fresh : ∀ n, s'.terms.has n = true → s.terms.has n = true ∨ InScope P n ∨ InScope (fun c => s.frames.has c = false) n
  binds : ∀ n, s.terms.has n = true → s'.getBindlist n = s.getBindlist n ∨ InScope P n

theorem hasOfGet {α : Type} {d : Dict ScopeChain α} {n : ScopeChain} {t : α} (h : d.get? n = some t) : d.has n = true := by
  rw [Dict.has_eq, h]; rfl

theorem get_some_of_has {α : Type} {d : Dict ScopeChain α} {n : ScopeChain} (h : d.has n = true) : ∃ t, d.get? n = some t := by
  rw [Dict.has_eq] at h; exact Option.isSome_iff_exists.mp h

theorem get_none_of_has {α : Type} {d : Dict ScopeChain α} {n : ScopeChain} (h : d.has n = false) : d.get? n = none := by
  rw [Dict.has_eq] at h; simpa using h

section
variable {P : ScopeChain → Prop} {s s1 s' s'' : BV} {mod C : ScopeChain}

theorem FStep.refl (P : ScopeChain → Prop) (s : BV) : FStep P s s :=
  ⟨fun _ f h => ⟨f.blocking, h⟩, fun _ _ h => .inl h, fun _ h => .inl h, fun _ _ => .inl rfl⟩

theorem FStep.hasF (h : FStep P s s') {c : ScopeChain} (hc : s.frames.has c = true) : s'.frames.has c = true := by
  obtain ⟨f, hf⟩ := get_some_of_has hc
  obtain ⟨bl, h'⟩ := h.frames c f hf
  exact hasOfGet h'

theorem FStep.hasT (h : FStep P s s') {n : ScopeChain} (hn : s.terms.has n = true) : s'.terms.has n = true := by
  obtain ⟨t, ht⟩ := get_some_of_has hn
  rcases h.terms n t ht with h' | h'
  · exact hasOfGet h'
  · exact h'.2

theorem FStep.trans (h : FStep P s s') (g : FStep P s' s'') : FStep P s s'' := by
  refine ⟨?_, ?_, ?_, ?_⟩
  · intro c f hf
    obtain ⟨bl, h1⟩ := h.frames c f hf
    obtain ⟨bl', h2⟩ := g.frames c _ h1
    exact ⟨bl', h2⟩
  · intro n t ht
    rcases h.terms n t ht with h1 | h1
    · exact g.terms n t h1
    · exact .inr ⟨h1.1, g.hasT h1.2⟩
  · intro n hn
    rcases g.fresh n hn with h1 | h1 | ⟨c, l, rfl, h1⟩
    · exact h.fresh n h1
    · exact .inr (.inl h1)
    · refine .inr (.inr ⟨c, l, rfl, ?_⟩)
      cases hc : s.frames.has c with
      | false => exact hc
      | true => rw [h.hasF hc] at h1; cases h1
  · intro n hn
    rcases g.binds n (h.hasT hn) with h1 | h1
    · rw [h1]; exact h.binds n hn
    · exact .inr h1

theorem FStep.mono {Q : ScopeChain → Prop} (h : FStep P s s') (hPQ : ∀ c, P c → Q c) : FStep Q s s' := by
  have hi : ∀ n, InScope P n → InScope Q n := fun n ⟨c, l, e, hp⟩ => ⟨c, l, e, hPQ c hp⟩
  refine ⟨h.frames, fun n t ht => ?_, fun n hn => ?_, fun n hn => ?_⟩
  · rcases h.terms n t ht with h1 | h1
    · exact .inl h1
    · exact .inr ⟨hi n h1.1, h1.2⟩
  · rcases h.fresh n hn with h1 | h1 | h1
    · exact .inl h1
    · exact .inr (.inl (hi n h1))
    · exact .inr (.inr h1)
  · rcases h.binds n hn with h1 | h1
    · exact .inl h1
    · exact .inr (hi n h1)

theorem inScope_eq {n : ScopeChain} (h : InScope (fun c => c = C) n) : ∃ l, n = C ++ [l] := by
  obtain ⟨c, l, h, rfl⟩ := h; exact ⟨l, h⟩

/-- What happens in a new scope is not seen from outside. -/
theorem FStep.drop (hI : FnInv mod s) (h : FStep (fun _ => False) s s') (g : FStep (fun c => c = C) s' s'') (hC : s.frames.has C = false) :
    FStep (fun _ => False) s s'' := by
  have hno : ∀ n, s.terms.has n = true → ¬ InScope (fun c => c = C) n := by
    intro n hn hi
    obtain ⟨l, rfl⟩ := inScope_eq hi
    rw [hI.home C l hn] at hC; cases hC
  have hno' : ∀ n, InScope (fun _ => False) n → False := fun n ⟨_, _, _, h⟩ => h
  refine ⟨?_, ?_, ?_, ?_⟩
  · intro c f hf
    obtain ⟨bl, h1⟩ := h.frames c f hf
    obtain ⟨bl', h2⟩ := g.frames c _ h1
    exact ⟨bl', h2⟩
  · intro n t ht
    rcases h.terms n t ht with h1 | h1
    · rcases g.terms n t h1 with h2 | h2
      · exact .inl h2
      · exact absurd h2.1 (hno n (hasOfGet ht))
    · exact (hno' n h1.1).elim
  · intro n hn
    rcases g.fresh n hn with h1 | h1 | ⟨c, l, rfl, h1⟩
    · exact h.fresh n h1
    · obtain ⟨l, rfl⟩ := inScope_eq h1
      exact .inr (.inr ⟨C, l, rfl, hC⟩)
    · refine .inr (.inr ⟨c, l, rfl, ?_⟩)
      cases hc : s.frames.has c with
      | false => exact hc
      | true => rw [h.hasF hc] at h1; cases h1
  · intro n hn
    rcases g.binds n (h.hasT hn) with h1 | h1
    · rw [h1]; exact h.binds n hn
    · exact absurd h1 (hno n hn)

theorem snoc_inj {a b : ScopeChain} {x y : ScopeLabel} (h : a ++ [x] = b ++ [y]) : a = b ∧ x = y := by
  have := List.append_inj' h rfl
  exact ⟨this.1, by simpa using this.2⟩

/-- Steps elsewhere add nothing to a scope. -/
theorem FStep.keepsScope (h : FStep P s s') {c : ScopeChain} (hc : s.frames.has c = true) (hP : ¬ P c) (l : ScopeLabel) :
    s'.terms.has (c ++ [l]) = s.terms.has (c ++ [l]) := by
  cases hb : s.terms.has (c ++ [l]) with
  | true => exact h.hasT hb
  | false =>
    by_contra hh
    rw [Bool.not_eq_false] at hh
    rcases h.fresh _ hh with h1 | ⟨c', l', h1, h2⟩ | ⟨c', l', h1, h2⟩
    · rw [hb] at h1; cases h1
    · obtain ⟨rfl, _⟩ := snoc_inj h1; exact hP h2
    · obtain ⟨rfl, _⟩ := snoc_inj h1; rw [hc] at h2; cases h2

theorem FStep.resOf (h : FStep P s s') {c : ScopeChain} (hc : s.frames.has c = true) (hP : ¬ P c) : Pyv.resOf s'.terms c = Pyv.resOf s.terms c := by
  funext n
  simp only [Pyv.resOf, h.keepsScope hc hP]

theorem FnInv.modHas (hI : FnInv mod s) : s.frames.has mod = true := by
  obtain ⟨m, hm, _⟩ := hI.modf; exact hasOfGet hm

theorem FnInv.quiet (hI : FnInv mod s) : Quiet s mod (Pyv.resOf s.terms mod) := by
  obtain ⟨m, h1, h2, h3, h4⟩ := hI.modf
  refine ⟨hI.nore, hI.plain, search_mod hI.ne h1 h2, ?_, ?_⟩
  · intro n k bs h
    cases k with
    | zero => simp [BV.getBlockingAssign] at h
    | succ k =>
      simp only [BV.getBlockingAssign, frame_ok h1, ok_bind, h3, Bool.false_eq_true, if_false, ok_inj] at h
      exact h.symm
  · intro p h
    unfold BV.path at h
    cases hf : s.fuel with
    | zero => rw [hf] at h; simp [BV.condflow] at h
    | succ k =>
      rw [hf] at h
      simp only [BV.condflow, bind_ok, ok_inj] at h
      obtain ⟨raw, hraw, cs, hcs, rs, hrs, rfl⟩ := h
      simp only [BV.rawConds, frame_ok h1, ok_bind, h4, h2, if_true, ok_inj] at hraw
      subst hraw
      simp only [List.mapM_nil, pure, Except.pure] at hcs
      cases hcs
      simp only [BV.resolveConds, ok_inj] at hrs
      subst hrs
      rfl

/-! ### The frames of a call -/

/-- `c` is the scope of a call below the module, or that of a block in the body of the function. -/
inductive FnAt (mod C : ScopeChain) (s : BV) : ScopeChain → Prop
  | base (l : ScopeLabel) (f : Frame) : C = mod ++ [l] → s.frames.get? C = some f → f.previous = mod → f.isModule = false → f.isAlways = false →
      f.cond = none → FnAt mod C s C
  | step (c : ScopeChain) (l : ScopeLabel) (f : Frame) : FnAt mod C s c → s.frames.get? (c ++ [l]) = some f → f.previous = c → f.isModule = false →
      f.isAlways = false → f.cond = none → (∀ k, s.terms.has (c ++ [l] ++ [k]) = false) → FnAt mod C s (c ++ [l])

/-- The names as the body of the function sees them. -/
def resIn (s : BV) (mod C : ScopeChain) (n : Str) : Option ScopeChain :=
  if s.terms.has (C ++ [⟨n, .signal, none⟩]) then some (C ++ [⟨n, .signal, none⟩]) else Pyv.resOf s.terms mod n

theorem FnAt.frame {c : ScopeChain} (h : FnAt mod C s c) : ∃ f, s.frames.get? c = some f ∧ f.isModule = false ∧ f.isAlways = false ∧ f.cond = none := by
  cases h with
  | base l f _ h1 _ h2 h3 h4 => exact ⟨f, h1, h2, h3, h4⟩
  | step c l f _ h1 _ h2 h3 h4 _ => exact ⟨f, h1, h2, h3, h4⟩

theorem FnAt.len {c : ScopeChain} (h : FnAt mod C s c) : C.length ≤ c.length ∧ mod.length + 1 = C.length := by
  induction h with
  | base l f h => exact ⟨Nat.le_refl _, by rw [h]; simp⟩
  | step c l f _ _ _ _ _ _ _ ih => exact ⟨by simp; omega, ih.2⟩

theorem FnAt.search {c : ScopeChain} (hI : FnInv mod s) (h : FnAt mod C s c) (n : Str) : s.searchTerminal n c = .ok (resIn s mod C n) := by
  induction h with
  | base l f h h1 _ h2 h3 h4 =>
    have hne : C ≠ [] := by rw [h]; simp
    rw [BV.searchTerminal, dif_neg hne]
    unfold resIn
    split
    · rfl
    · simp only [frame_ok h1, ok_bind, h2, Bool.false_eq_true, if_false]
      rw [h, List.dropLast_concat]
      exact hI.quiet.search n
  | step c l f _ h1 _ h2 h3 h4 h5 ih =>
    rw [BV.searchTerminal, dif_neg (by simp)]
    simp only [h5, Bool.false_eq_true, if_false, frame_ok h1, ok_bind, h2]
    rw [List.dropLast_concat]
    exact ih

theorem FnAt.conds {c : ScopeChain} (hI : FnInv mod s) (h : FnAt mod C s c) : ∀ k raw, s.rawConds k c = .ok raw → raw = [] := by
  obtain ⟨m, m1, m2, m3, m4⟩ := hI.modf
  have hm : ∀ k raw, s.rawConds k mod = .ok raw → raw = [] := by
    intro k raw h
    cases k with
    | zero => simp [BV.rawConds] at h
    | succ k =>
      simp only [BV.rawConds, frame_ok m1, ok_bind, m4, m2, if_true, ok_inj] at h
      exact h.symm
  induction h with
  | base l f h h1 hp h2 h3 h4 =>
    intro k raw hr
    cases k with
    | zero => simp [BV.rawConds] at hr
    | succ k =>
      simp only [BV.rawConds, frame_ok h1, ok_bind, h4, h2, Bool.false_eq_true, if_false, bind_ok, ok_inj, List.nil_append, hp] at hr
      obtain ⟨rest, h5, rfl⟩ := hr
      exact hm k _ h5
  | step c l f _ h1 hp h2 h3 h4 h5 ih =>
    intro k raw hr
    cases k with
    | zero => simp [BV.rawConds] at hr
    | succ k =>
      simp only [BV.rawConds, frame_ok h1, ok_bind, h4, h2, Bool.false_eq_true, if_false, bind_ok, ok_inj, List.nil_append, hp] at hr
      obtain ⟨rest, h5, rfl⟩ := hr
      exact ih k _ h5

theorem FnAt.quiet {c : ScopeChain} (hI : FnInv mod s) (h : FnAt mod C s c) : Quiet s c (resIn s mod C) := by
  obtain ⟨f, h1, h2, h3, h4⟩ := h.frame
  refine ⟨hI.nore, hI.plain, h.search hI, ?_, ?_⟩
  · intro n k bs h
    cases k with
    | zero => simp [BV.getBlockingAssign] at h
    | succ k =>
      simp only [BV.getBlockingAssign, frame_ok h1, ok_bind, h3, Bool.false_eq_true, if_false, ok_inj] at h
      exact h.symm
  · intro p hp
    unfold BV.path at hp
    cases hf : s.fuel with
    | zero => rw [hf] at hp; simp [BV.condflow] at hp
    | succ k =>
      rw [hf] at hp
      simp only [BV.condflow, bind_ok, ok_inj] at hp
      obtain ⟨raw, hraw, cs, hcs, rs, hrs, rfl⟩ := hp
      have := h.conds hI _ _ hraw
      subst this
      simp only [List.mapM_nil, pure, Except.pure] at hcs
      cases hcs
      simp only [BV.resolveConds, ok_inj] at hrs
      subst hrs
      rfl

theorem FnAt.always {c : ScopeChain} (h : FnAt mod C s c) {k : Nat} {a : Option AlwaysInfo} (ha : s.alwaysStatus k c = .ok a) : a = none := by
  obtain ⟨f, h1, h2, h3, h4⟩ := h.frame
  cases k with
  | zero => simp [BV.alwaysStatus] at ha
  | succ k =>
    simp only [BV.alwaysStatus, frame_ok h1, ok_bind, h3, Bool.not_false, Bool.or_true, if_true, ok_inj] at ha
    exact ha.symm

/-- The frames stay. -/
theorem FnAt.step_of {c : ScopeChain} (h : FnAt mod C s c) (g : FStep (fun c => c = C) s s') : FnAt mod C s' c := by
  induction h with
  | base l f h h1 hp h2 h3 h4 =>
    obtain ⟨bl, g1⟩ := g.frames _ _ h1
    exact .base l _ h g1 hp h2 h3 h4
  | step c l f hc h1 hp h2 h3 h4 h5 ih =>
    obtain ⟨bl, g1⟩ := g.frames _ _ h1
    refine .step c l _ ih g1 hp h2 h3 h4 (fun k => ?_)
    rw [g.keepsScope (hasOfGet h1) (fun e => ?_), h5]
    have := hc.len.1
    rw [← e] at this
    simp at this

end

end Pyv
