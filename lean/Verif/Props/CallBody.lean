import Verif.Props.CallQuiet
/-
  C91: the assignments in the scope of a call.
-/
namespace Pyv

section
variable {s s' : BV} {mod C : ScopeChain}

/-! ### Recording -/

theorem alloc_dest {b : Bind} {i : Nat} {b0 : Bind} (h : s.objs[i]? = some b0) : (s.alloc b).objs[i]? = some b0 := by
  simp only [BV.alloc]
  rw [List.getElem?_append_left (List.getElem?_eq_some_iff.mp h).1, h]

theorem setTree_dest {j : Nat} {t : DF} {i : Nat} {b0 : Bind} (h : s.objs[i]? = some b0) :
    ∃ b1, (s.setTree j t).objs[i]? = some b1 ∧ b1.dest = b0.dest := by
  simp only [BV.setTree, List.getElem?_modify, h]
  exact ⟨_, rfl, by split <;> rfl⟩

/-- Objects keep their destinations. -/
theorem addBindObj_dest {n : ScopeChain} {b : Bind} {k i : Nat} {b0 : Bind} (h : s.objs[i]? = some b0) :
    ∃ b1, (s.addBindObj n k b).objs[i]? = some b1 ∧ b1.dest = b0.dest := by
  unfold BV.addBindObj
  split
  · exact ⟨b0, h, rfl⟩
  · split
    · exact setTree_dest h
    · exact ⟨b0, h, rfl⟩

theorem addBindObj_keys {n : ScopeChain} {b : Bind} {k : Nat} {m ids} (h : (s.addBindObj n k b).binds.get? m = some ids) :
    m = n ∨ ∃ ids', s.binds.get? m = some ids' := by
  unfold BV.addBindObj at h
  split at h
  · simp only [Dict.get?_set] at h
    split at h
    · next e => exact .inl e.symm
    · exact .inr ⟨_, h⟩
  · split at h
    · exact .inr ⟨_, h⟩
    · simp only [Dict.get?_set] at h
      split at h
      · next e => exact .inl e.symm
      · exact .inr ⟨_, h⟩

theorem addBindObj_rest {n : ScopeChain} {b : Bind} {k : Nat} :
    (s.addBindObj n k b).noreorder = s.noreorder ∧ (s.addBindObj n k b).terms = s.terms ∧ (s.addBindObj n k b).frames = s.frames ∧
    (s.addBindObj n k b).current = s.current ∧ (s.addBindObj n k b).fuel = s.fuel := by
  unfold BV.addBindObj
  split
  · exact ⟨rfl, rfl, rfl, rfl, rfl⟩
  · split <;> exact ⟨rfl, rfl, rfl, rfl, rfl⟩

/-- What the recording of one assignment to the signal `n` of the scope `C` leaves. -/
structure Wrote (mod C : ScopeChain) (s s' : BV) (n : ScopeChain) (t : DF) : Prop where
  inv : FnInv mod s'
  step : FStep (fun c => c = C) s s'
  cur : s'.current = s.current
  terms : s'.terms = s.terms
  new : ∃ c ∈ s'.getBindlist n, c.whole ∧ c.tree = t
  others : ∀ m, m ≠ n → s'.getBindlist m = s.getBindlist m

theorem record_fn (hI : FnInv mod s) {b : Bind} (hw : b.whole) (hd : s.terms.has b.dest = true) {l : ScopeLabel} (hl : b.dest = C ++ [l]) :
    Wrote mod C s ((s.alloc b).addBindObj b.dest s.objs.length b) b.dest b.tree := by
  have ha := addBindObj_added b hI.objs
  obtain ⟨r1, r2, r3, r4, r5⟩ := addBindObj_rest (s := s.alloc b) (n := b.dest) (b := b) (k := s.objs.length)
  have hobj : ∀ (i : Nat) (b0 : Bind), s.objs[i]? = some b0 → ∃ b1, ((s.alloc b).addBindObj b.dest s.objs.length b).objs[i]? = some b1 ∧ b1.dest = b0.dest :=
    fun i b0 h => addBindObj_dest (alloc_dest h)
  have hk : ∀ m ids, ((s.alloc b).addBindObj b.dest s.objs.length b).binds.get? m = some ids → m = b.dest ∨ ∃ ids', s.binds.get? m = some ids' :=
    fun m ids h => addBindObj_keys (s := s.alloc b) h
  generalize hs' : (s.alloc b).addBindObj b.dest s.objs.length b = s' at *
  have hterms : s'.terms = s.terms := r2
  have hframes : s'.frames = s.frames := r3
  refine ⟨⟨hI.ne, ?_, by rw [r1]; exact hI.nore, ha.objs, ?_, ?_, ?_, ?_⟩, ?_, r4, r2, ?_, ha.others⟩
  · simpa [isModFrame, hframes] using hI.modf
  · intro m ids h
    rw [hterms]
    rcases hk m ids h with rfl | ⟨ids', h'⟩
    · exact hd
    · exact hI.keys m ids' h'
  · rw [hterms, hframes]; exact hI.home
  · rw [hterms]; exact hI.plain
  · rw [hframes]
    intro c f hf n ids hn i hi
    obtain ⟨b0, h1, h2⟩ := hI.blk c f hf n ids hn i hi
    obtain ⟨b1, h3, h4⟩ := hobj i b0 h1
    exact ⟨b1, h3, h4.trans h2⟩
  · refine ⟨fun c f h => ⟨f.blocking, by rw [hframes]; exact h⟩, fun n t h => .inl (by rw [hterms]; exact h), fun n h => .inl (by rw [← hterms]; exact h), ?_⟩
    intro n _
    by_cases e : n = b.dest
    · exact .inr ⟨C, l, e.trans hl, rfl⟩
    · exact .inl (ha.others n e)
  · obtain ⟨c, h1, h2, h3⟩ := ha.new
    obtain ⟨w1, w2, w3⟩ := hw
    exact ⟨c, h1, ⟨by rw [h2.2.1, w1], by rw [h2.2.2.1, w2], by rw [h2.2.2.2, w3]⟩, h3⟩

/-- The note in the frame of the assignment. -/
theorem blocking_fn (hI : FnInv mod s) {c x : ScopeChain} {i : Nat} {b bi : Bind} {l : ScopeLabel} (hx : x = C ++ [l]) (hi : s.objs[i]? = some bi)
    (hbi : bi.dest = x) (hd : b.whole) (hold : ∃ k ∈ s.getBindlist x, k.whole ∧ k.tree = b.tree) (h : s.setBlocking c x i b = .ok s') :
    Wrote mod C s s' x b.tree := by
  simp only [BV.setBlocking, bind_ok] at h
  obtain ⟨f, hf, h⟩ := h
  have hf := frame_get hf
  have hset : ∀ ids : List Nat, (∀ j ∈ ids, ∃ b, s.objs[j]? = some b ∧ b.dest = x) →
      Wrote mod C s { s with frames := Dict.set s.frames c { f with blocking := Dict.set f.blocking x ids } } x b.tree := by
    intro ids hids
    have hget : ∀ k, (Dict.set s.frames c { f with blocking := Dict.set f.blocking x ids }).get? k =
        if c = k then some { f with blocking := Dict.set f.blocking x ids } else s.frames.get? k := fun k => Dict.get?_set ..
    have hhas : ∀ k, s.frames.has k = true → (Dict.set s.frames c { f with blocking := Dict.set f.blocking x ids }).has k = true := by
      intro k hk
      rw [Dict.has_eq, hget]
      split
      · rfl
      · rw [← Dict.has_eq]; exact hk
    refine ⟨⟨hI.ne, ?_, hI.nore, hI.objs, hI.keys, fun c' l' h => hhas _ (hI.home c' l' h), hI.plain, ?_⟩, ?_, rfl, rfl, hold, fun _ _ => rfl⟩
    · obtain ⟨m, h1, h2, h3, h4⟩ := hI.modf
      simp only [isModFrame, hget]
      split
      · next e =>
        subst e
        rw [hf] at h1; cases h1
        exact ⟨_, rfl, h2, h3, h4⟩
      · exact ⟨m, h1, h2, h3, h4⟩
    · intro c' f' h' n is hn j hj
      simp only [hget] at h'
      split at h'
      · next e =>
        subst e
        cases h'
        simp only [Dict.get?_set] at hn
        split at hn
        · next e => subst e; cases hn; exact hids j hj
        · exact hI.blk c f hf n is hn j hj
      · exact hI.blk c' f' h' n is hn j hj
    · refine ⟨?_, fun n t h => .inl h, fun n h => .inl h, fun n _ => .inl rfl⟩
      intro c' f' h'
      simp only [hget]
      split
      · next e =>
        subst e
        rw [hf] at h'; cases h'
        exact ⟨_, rfl⟩
      · exact ⟨f'.blocking, h'⟩
  split at h
  · cases h
    exact hset [i] (by simp; exact ⟨bi, hi, hbi⟩)
  · next ids hids =>
    split at h
    · next j hj =>
      cases h
      have hj1 : j ∈ ids := List.mem_of_find?_eq_some hj
      obtain ⟨bj, hbj, hdj⟩ := hI.blk c f hf x ids hids j hj1
      have hmod : ∀ k, (s.setTree j b.tree).objs[k]? = (s.objs[k]?).map (fun a => if j = k then { a with tree := b.tree } else a) := by
        intro k
        simp only [BV.setTree, List.getElem?_modify]
        cases s.objs[k]? <;> simp
      have hdest : ∀ (k : Nat) (b0 : Bind), s.objs[k]? = some b0 → ∃ b1, (s.setTree j b.tree).objs[k]? = some b1 ∧ b1.dest = b0.dest :=
        fun k b0 h => setTree_dest h
      have hoth : ∀ m, m ≠ x → (s.setTree j b.tree).getBindlist m = s.getBindlist m := by
        intro m hm
        show ((s.binds.get? m).getD []).filterMap _ = ((s.binds.get? m).getD []).filterMap _
        cases h : s.binds.get? m with
        | none => rfl
        | some is =>
          refine List.filterMap_congr fun k hk => ?_
          obtain ⟨b0, hb0, hd0⟩ := hI.objs m is h k hk
          rw [hmod, hb0]
          have : j ≠ k := by
            rintro rfl
            rw [hbj] at hb0; cases hb0
            exact hm (hd0.symm.trans hdj)
          simp [this]
      refine ⟨⟨hI.ne, hI.modf, hI.nore, ?_, hI.keys, hI.home, hI.plain, ?_⟩, ?_, rfl, rfl, ?_, hoth⟩
      · intro m is hm k hk
        obtain ⟨b0, h1, h2⟩ := hI.objs m is hm k hk
        obtain ⟨b1, h3, h4⟩ := hdest k b0 h1
        exact ⟨b1, h3, h4.trans h2⟩
      · intro c' f' h' m is hm k hk
        obtain ⟨b0, h1, h2⟩ := hI.blk c' f' h' m is hm k hk
        obtain ⟨b1, h3, h4⟩ := hdest k b0 h1
        exact ⟨b1, h3, h4.trans h2⟩
      · refine ⟨fun c' f' h' => ⟨f'.blocking, h'⟩, fun n t h => .inl h, fun n h => .inl h, fun n _ => ?_⟩
        by_cases e : n = x
        · exact .inr ⟨C, l, e.trans hx, rfl⟩
        · exact .inl (hoth n e)
      · obtain ⟨k, h1, h2, h3⟩ := hold
        obtain ⟨is, q, g1, g2, g3⟩ := mem_getBindlist.mp h1
        refine ⟨if j = q then { k with tree := b.tree } else k, mem_getBindlist.mpr ⟨is, q, g1, g2, ?_⟩, ?_, ?_⟩
        · rw [hmod, g3]; rfl
        · split <;> exact h2
        · split
          · rfl
          · exact h3
    · cases h
      refine hset (ids ++ [i]) ?_
      intro j hj
      rcases List.mem_append.mp hj with hj | hj
      · exact hI.blk c f hf x ids hids j hj
      · rw [List.mem_singleton] at hj; subst hj; exact ⟨bi, hi, hbi⟩

theorem Wrote.trans {s1 : BV} {n : ScopeChain} {t t' : DF} (h : Wrote mod C s s1 n t) (g : Wrote mod C s1 s' n t') : Wrote mod C s s' n t' :=
  ⟨g.inv, h.step.trans g.step, g.cur.trans h.cur, g.terms.trans h.terms, g.new, fun m hm => (g.others m hm).trans (h.others m hm)⟩

/-- Nothing depends on the tables of the optimizer. -/
theorem FnInv.octx (h : FnInv mod s) (o : OptCtx) : FnInv mod { s with octx := o } :=
  ⟨h.ne, h.modf, h.nore, h.objs, h.keys, h.home, h.plain, h.blk⟩

theorem FStep.octx {P : ScopeChain → Prop} (h : FStep P s s') (o : OptCtx) : FStep P s { s' with octx := o } := ⟨h.frames, h.terms, h.fresh, h.binds⟩

theorem Wrote.octx {n : ScopeChain} {t : DF} (h : Wrote mod C s s' n t) (o : OptCtx) : Wrote mod C s { s' with octx := o } n t :=
  ⟨h.inv.octx o, h.step.octx o, h.cur, h.terms, h.new, h.others⟩

/-! ### One assignment -/

theorem freshName_rn {n c : ScopeChain} {k r : Nat} (h : s.freshName n k = .ok (c, r)) :
    s.terms.has c = false ∧ ∃ nm, c = n.dropLast ++ [⟨nm, .signal, none⟩] ∧ userName nm = false := by
  cases k with
  | zero => simp [BV.freshName] at h
  | succ k =>
    simp only [BV.freshName] at h
    have go : ∀ nm0 j r0, BV.freshName.go s n nm0 r0 j = .ok (c, r) →
        s.terms.has c = false ∧ ∃ nm, c = n.dropLast ++ [⟨nm, .signal, none⟩] ∧ userName nm = false := by
      intro nm0 j
      induction j with
      | zero => intro r0 h; simp [BV.freshName.go] at h
      | succ j ih =>
        intro r0 h
        simp only [BV.freshName.go] at h
        split at h
        · exact ih _ h
        · rename_i hh
          simp only [ok_inj, Prod.mk.injEq] at h
          obtain ⟨rfl, -⟩ := h
          refine ⟨by simpa using hh, _, rfl, ?_⟩
          simp only [userName, Bool.not_eq_false', List.isPrefixOf_iff_prefix]
          exact ⟨natStr r0 ++ ['_'] ++ nm0, by simp⟩
    exact go _ _ _ h

/-- A new signal of the scope `C`. -/
theorem addTerm_fn (hI : FnInv mod s) {n : ScopeChain} {l : ScopeLabel} (hn : n = C ++ [l]) (hC : s.frames.has C = true) {t : Term}
    (ht : t.types.contains .genvar = false ∧ t.dims = none) (hno : s.terms.has n = false) (r : Nat) :
    FnInv mod { s with rename := r, terms := Dict.set s.terms n t } ∧ FStep (fun c => c = C) s { s with rename := r, terms := Dict.set s.terms n t } := by
  have hget : ∀ k, (Dict.set s.terms n t).get? k = if n = k then some t else s.terms.get? k := fun k => Dict.get?_set ..
  have hhas : ∀ k, s.terms.has k = true → (Dict.set s.terms n t).has k = true := by
    intro k hk
    rw [Dict.has_eq, hget]
    split
    · rfl
    · rw [← Dict.has_eq]; exact hk
  refine ⟨⟨hI.ne, hI.modf, hI.nore, hI.objs, fun m ids h => hhas m (hI.keys m ids h), ?_, ?_, hI.blk⟩, ⟨fun c f h => ⟨f.blocking, h⟩, ?_, ?_, fun _ _ => .inl rfl⟩⟩
  · intro c l' h
    rw [Dict.has_eq, hget] at h
    split at h
    · next e => rw [hn] at e; obtain ⟨rfl, _⟩ := snoc_inj e; exact hC
    · rw [← Dict.has_eq] at h; exact hI.home c l' h
  · intro m t' h
    rw [hget] at h
    split at h
    · cases h; exact ht
    · exact hI.plain m t' h
  · intro m t' h
    left
    rw [hget, if_neg]
    · exact h
    · rintro rfl; rw [hasOfGet h] at hno; cases hno
  · intro m h
    rw [Dict.has_eq, hget] at h
    split at h
    · next e => exact .inr (.inl ⟨C, l, by rw [← e, hn], rfl⟩)
    · rw [← Dict.has_eq] at h; exact .inl h

/-- What a blocking assignment to the variable `x` of a function leaves: a new signal with the tree of the right side, and the
variable with the new signal. -/
structure Assigned (mod C : ScopeChain) (s s' : BV) (c : ScopeChain) (x : ScopeChain) (t : Term) (raw : DF) : Prop where
  inv : FnInv mod s'
  step : FStep (fun c => c = C) s s'
  cur : s'.current = s.current
  new : ∃ nm, userName nm = false ∧ s.terms.has (C ++ [⟨nm, .signal, none⟩]) = false ∧
    s'.terms.get? (C ++ [⟨nm, .signal, none⟩]) = some { t with name := C ++ [⟨nm, .signal, none⟩], types := [.rename] } ∧
    (∀ n, n ≠ C ++ [⟨nm, .signal, none⟩] → s'.terms.get? n = s.terms.get? n) ∧
    (∃ b ∈ s'.getBindlist (C ++ [⟨nm, .signal, none⟩]), b.whole ∧ b.tree = raw) ∧
    (∃ b ∈ s'.getBindlist x, b.whole ∧ s.reo (.term (C ++ [⟨nm, .signal, none⟩])) = .ok b.tree) ∧
    ∀ n, s.terms.has n = true → n ≠ x → s'.getBindlist n = s.getBindlist n

theorem getDst_fn {c : ScopeChain} {x : Str} (hI : FnInv mod s) (hc : FnAt mod C s c) (hx : s.terms.has (C ++ [⟨x, .signal, none⟩]) = true)
    {ds : List PDst} {s1 : BV} (h : s.getDestinations (.ident [] x) c = .ok (ds, s1)) :
    s1 = s ∧ ds = [⟨⟨some (C ++ [⟨x, .signal, none⟩]), .none, .none, .none⟩, .none, .none⟩] := by
  have hs := hc.search hI x
  rw [resIn, if_pos hx] at hs
  simp only [BV.getDestinations, BV.getDsts, BV.getDst, hs, ok_bind, if_true, ok_inj, Prod.mk.injEq] at h
  exact ⟨h.2.symm, h.1.symm⟩

theorem assign_fn (hI : FnInv mod s) {c : ScopeChain} (hc : FnAt mod C s c) (hcur : s.current = c) (hC : s.frames.has C = true) {x : Str} {t : Term}
    (hx : s.terms.get? (C ++ [⟨x, .signal, none⟩]) = some t) {r : Ex} (h : (Stmt.ba (.ident [] x) r).visit s = .ok s') :
    ∃ raw, s.getTree r c = .ok raw ∧ Assigned mod C s s' c (C ++ [⟨x, .signal, none⟩]) t raw := by
  simp only [Stmt.visit, bind_ok] at h
  obtain ⟨a, ha, h⟩ := h
  rw [hcur] at ha
  have := hc.always ha
  subst this
  simp only [BV.addBindBlocking, bind_ok] at h
  obtain ⟨⟨ds, s0⟩, hds, h⟩ := h
  rw [hcur] at hds
  obtain ⟨rfl, rfl⟩ := getDst_fn hI hc (hasOfGet hx) hds
  simp only [BV.addBlocking, hcur, bind_ok, BV.renameDsts] at h
  obtain ⟨p', hp', raw, hraw, ⟨rd, s1⟩, ⟨⟨d, s1'⟩, hren, ⟨ds', s1''⟩, hnil, hrd⟩, s2, h2, s3, h3, h⟩ := h
  have := (hc.quiet hI).path p' hp'
  subst this
  simp only [ok_inj, Prod.mk.injEq] at hnil hrd
  obtain ⟨rfl, rfl⟩ := hnil
  obtain ⟨rfl, rfl⟩ := hrd
  simp only [List.foldlM_cons, List.foldlM_nil, bind_ok, py_pure, ok_inj, List.length_cons, List.length_nil, Nat.zero_add, List.zip_cons_cons, List.zip_nil_left] at h2 h3
  obtain ⟨s2', h2, e2⟩ := h2
  obtain ⟨s3', h3, e3⟩ := h3
  subst s2' s3'
  -- the new signal
  simp only [BV.renameDst, bind_ok] at hren
  obtain ⟨⟨rn, k⟩, hfr, hren⟩ := hren
  obtain ⟨hno, nm, hrn, hnm⟩ := freshName_rn hfr
  rw [List.dropLast_concat] at hrn
  subst hrn
  simp only [hx, ok_inj, Prod.mk.injEq] at hren
  obtain ⟨rfl, rfl⟩ := hren
  have hadd : ((DataFlow.mk s0.terms []).addTerm (C ++ [⟨nm, .signal, none⟩]) { t with name := C ++ [⟨nm, .signal, none⟩], types := [.rename] }).terms =
      Dict.set s0.terms (C ++ [⟨nm, .signal, none⟩]) { t with name := C ++ [⟨nm, .signal, none⟩], types := [.rename] } := by
    simp [DataFlow.addTerm, get_none_of_has hno]
  rw [hadd] at h2
  obtain ⟨i1, st1⟩ := addTerm_fn (C := C) hI rfl hC (t := { t with name := C ++ [⟨nm, .signal, none⟩], types := [.rename] })
    ⟨rfl, (hI.plain _ _ hx).2⟩ hno k
  have hg1 : ∀ n, (Dict.set s0.terms (C ++ [⟨nm, .signal, none⟩]) { t with name := C ++ [⟨nm, .signal, none⟩], types := [.rename] }).get? n =
      if C ++ [⟨nm, .signal, none⟩] = n then some { t with name := C ++ [⟨nm, .signal, none⟩], types := [.rename] } else s0.terms.get? n := fun n => Dict.get?_set ..
  have hb1 : ∀ n, BV.getBindlist { s0 with rename := k, terms := Dict.set s0.terms (C ++ [⟨nm, .signal, none⟩]) { t with name := C ++ [⟨nm, .signal, none⟩], types := [.rename] } } n = s0.getBindlist n := fun _ => rfl
  generalize hs1 : ({ s0 with rename := k, terms := Dict.set s0.terms (C ++ [⟨nm, .signal, none⟩]) { t with name := C ++ [⟨nm, .signal, none⟩], types := [.rename] } } : BV) = s1 at *
  have ht1 : s1.terms = Dict.set s0.terms (C ++ [⟨nm, .signal, none⟩]) { t with name := C ++ [⟨nm, .signal, none⟩], types := [.rename] } := by rw [← hs1]
  have hc1 : s1.current = s0.current := by rw [← hs1]
  have hfu1 : s1.fuel = s0.fuel := by rw [← hs1]
  have hhas1 : s1.terms.has (C ++ [⟨nm, .signal, none⟩]) = true := by rw [ht1, Dict.has_eq, hg1, if_pos rfl]; rfl
  -- its tree
  simp only [BV.setRenamedTree1, gt_iff_lt, lt_self_iff_false, if_false, ok_bind, bind_ok] at h2
  obtain ⟨v, hv, h2⟩ := h2
  have w2 := record_fn (C := C) i1 (b := ⟨raw, C ++ [⟨nm, .signal, none⟩], .none, .none, .none, [], none⟩) ⟨rfl, rfl, rfl⟩ hhas1 rfl
  simp only at w2
  generalize hq : (s1.alloc ⟨raw, C ++ [⟨nm, .signal, none⟩], .none, .none, .none, [], none⟩).addBindObj (C ++ [⟨nm, .signal, none⟩]) s1.objs.length
    ⟨raw, C ++ [⟨nm, .signal, none⟩], .none, .none, .none, [], none⟩ = s1b at *
  have hq5 : s1b.fuel = s0.fuel := by
    rw [← hq, addBindObj_rest.2.2.2.2]; exact hfu1
  have : ∃ o, s2 = { s1b with octx := o } := by
    split at h2
    · cases h2
    · simp only [ok_inj] at h2; exact ⟨_, h2.symm⟩
  obtain ⟨o, rfl⟩ := this
  replace w2 := w2.octx o
  -- the variable
  simp only [BV.setRenamedFlow1, bind_ok] at h3
  obtain ⟨b, hb, h3⟩ := h3
  simp only [BV.makeBind, bind_ok, bindTree, diffBranchTree, addTree, appendBranchTree, makeBranchTree, ne_eq, not_true_eq_false,
    false_and, if_false, ok_bind, gt_iff_lt, lt_self_iff_false, ok_inj] at hb
  obtain ⟨tr, htr, rfl⟩ := hb
  have hxx : C ++ [⟨nm, .signal, none⟩] ≠ C ++ [⟨x, .signal, none⟩] := by
    intro e; rw [e, hasOfGet hx] at hno; cases hno
  have hx1 : s1.terms.get? (C ++ [⟨x, .signal, none⟩]) = some t := by rw [ht1, hg1, if_neg hxx]; exact hx
  have w3 := record_fn (C := C) w2.inv (b := ⟨tr, C ++ [⟨x, .signal, none⟩], .none, .none, .none, [], none⟩) ⟨rfl, rfl, rfl⟩
    (by rw [w2.terms]; exact hasOfGet hx1) rfl
  simp only at w3 h3
  obtain ⟨bi, hbi, hbd⟩ := addBindObj_dest (s := ({ s1b with octx := o } : BV).alloc ⟨tr, C ++ [⟨x, .signal, none⟩], .none, .none, .none, [], none⟩)
    (n := C ++ [⟨x, .signal, none⟩]) (b := ⟨tr, C ++ [⟨x, .signal, none⟩], .none, .none, .none, [], none⟩) (k := s1b.objs.length) (i := s1b.objs.length)
    (b0 := ⟨tr, C ++ [⟨x, .signal, none⟩], .none, .none, .none, [], none⟩) (by simp [BV.alloc])
  have w4 := blocking_fn (C := C) w3.inv rfl hbi hbd ⟨rfl, rfl, rfl⟩ w3.new h3
  have w34 := w3.trans w4
  -- the constants
  have hs' : ∃ o, s' = { s3 with octx := o } := by
    simp only [BV.setLoopConst, bind_ok, ok_inj] at h
    obtain ⟨_, _, _, _, rfl⟩ := h
    exact ⟨_, rfl⟩
  obtain ⟨o', rfl⟩ := hs'
  replace w34 := w34.octx o'
  have hterms : s3.terms = s1.terms := w34.terms.trans w2.terms
  refine ⟨raw, hraw, w34.inv, st1.trans (w2.step.trans w34.step), w34.cur.trans (w2.cur.trans hc1), nm, hnm, hno, ?_, ?_, ?_, ?_, ?_⟩
  · show s3.terms.get? _ = _
    rw [hterms, ht1, hg1, if_pos rfl]
  · intro n hn
    show s3.terms.get? n = _
    rw [hterms, ht1, hg1, if_neg (Ne.symm hn)]
  · rw [w34.others _ hxx]; exact w2.new
  · obtain ⟨b, h1, h2, h3⟩ := w34.new
    refine ⟨b, h1, h2, ?_⟩
    rw [h3, ← htr]
    simp only [BV.reo, hq5]
  · intro n hn hne
    have hn' : n ≠ C ++ [⟨nm, .signal, none⟩] := by rintro rfl; rw [hn] at hno; cases hno
    rw [w34.others n hne, w2.others n hn']
    exact hb1 n

end

end Pyv
