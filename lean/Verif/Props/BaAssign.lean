import Verif.Props.BaStep
/-
  C74: a blocking assignment.
-/
namespace Pyv

section
variable {K : BaEnv} {s s' s'' : BV} {c : ScopeChain} {p : ExPath} {asg asg' : ScopeChain → Prop}

/-- Nothing depends on the tables of the optimizer. -/
theorem BaWF.octx (h : BaWF K s) (o : OptCtx) : BaWF K { s with octx := o } := ⟨h.ext, h.flat, h.nore, h.fuel, h.keys, h.objs, h.tabs⟩

theorem BaStep.octx (h : BaStep K s s' c asg) (o : OptCtx) : BaStep K s { s' with octx := o } c asg :=
  ⟨⟨h.keeps.wf.octx o, h.keeps.term, h.keeps.bnd, h.keeps.len, h.keeps.asgX, h.keeps.tid, h.keeps.tid0, h.keeps.tid1, h.keeps.tidn, h.keeps.obj⟩,
    h.cur, h.frm, h.own, h.ent0, h.ent1⟩

theorem freshName_ok {n c : ScopeChain} {k r : Nat} (h : s.freshName n k = .ok (c, r)) :
    s.terms.has c = false ∧ ∃ nm, c = n.dropLast ++ [⟨nm, .signal, none⟩] := by
  cases k with
  | zero => simp [BV.freshName] at h
  | succ k =>
    simp only [BV.freshName] at h
    have go : ∀ nm0 j r0, BV.freshName.go s n nm0 r0 j = .ok (c, r) →
        s.terms.has c = false ∧ ∃ nm, c = n.dropLast ++ [⟨nm, .signal, none⟩] := by
      intro nm0 j
      induction j with
      | zero => intro r0 h; simp [BV.freshName.go] at h
      | succ j ih =>
        intro r0 h
        simp only [BV.freshName.go] at h
        split at h
        · exact ih _ h
        · rename_i hh
          simp only [ok_inj, Prod.mk.injEq] at h
          obtain ⟨rfl, -⟩ := h
          exact ⟨by simpa using hh, _, rfl⟩
    exact go _ _ _ h

/-- The intermediate signal and its assignment enter the tables. -/
theorem rename_ba (hw : BaWF K s) (hK : K.OK) (hc : BaChain K s.frames c p) {x : ScopeChain} (hX : K.X x) {nm0 : Str} (hx : x = K.mod ++ [⟨nm0, .signal, none⟩])
    {raw : DF} {d : PDst} {s1 s2 : BV}
    (h1 : s.renameDst ⟨⟨some x, .none, .none, .none⟩, .none, .none⟩ = .ok (d, s1)) (h2 : BV.setRenamedTree1 raw 1 s1 d = .ok s2) :
    ∃ rn t, d.name = some rn ∧ s.terms.has rn = false ∧ s.terms.get? x = some t ∧
      s2.terms.get? rn = some { t with name := rn, types := [.rename] } ∧ BaStep K s s2 c (fun _ => False) ∧
      (∃ b, s2.getBindlist rn = [b] ∧ b.tree = raw) ∧ s2.frames = s.frames ∧ ¬ K.X rn := by
  simp only [BV.renameDst, bind_ok] at h1
  obtain ⟨⟨rn, r⟩, hfr, h1⟩ := h1
  obtain ⟨hno, nm, hnm⟩ := freshName_ok hfr
  obtain ⟨t, ht0, hdims⟩ := hK.decl x hX
  have ht := hw.ext x t ht0
  rw [ht] at h1
  simp only [ok_inj, Prod.mk.injEq] at h1
  obtain ⟨rfl, rfl⟩ := h1
  rw [Dict.has_eq] at hno
  have hno' : s.terms.get? rn = none := by simpa using hno
  have hrX : ¬ K.X rn := by
    intro h
    obtain ⟨t', h', -⟩ := hK.decl rn h
    rw [hw.ext rn t' h'] at hno'
    cases hno'
  have hadd : ((DataFlow.mk s.terms []).addTerm rn { t with name := rn, types := [.rename] }).terms = Dict.set s.terms rn { t with name := rn, types := [.rename] } := by
    simp [DataFlow.addTerm, hno']
  rw [hadd] at h2
  have hget : ∀ n, (Dict.set s.terms rn { t with name := rn, types := [.rename] }).get? n = if rn = n then some { t with name := rn, types := [.rename] } else s.terms.get? n :=
    fun n => Dict.get?_set ..
  simp only [BV.setRenamedTree1, gt_iff_lt, lt_self_iff_false, if_false, ok_bind, bind_ok] at h2
  obtain ⟨v, hv, h2⟩ := h2
  have hbn : s.binds.get? rn = none := by
    cases hb : s.binds.get? rn with
    | none => rfl
    | some ids => have := hw.keys rn ids hb; rw [Dict.has_eq, hno'] at this; cases this
  have hbind : ∀ (z : BV) (b : Bind) (i : Nat), z.binds = s.binds → z.addBindObj rn i b = { z with binds := Dict.set s.binds rn [i] } := by
    intro z b i hz
    simp [BV.addBindObj, hz, hbn]
  rw [hbind (BV.alloc { s with rename := r, terms := Dict.set s.terms rn { t with name := rn, types := [.rename] } } _) _ _ rfl] at h2
  simp only [BV.alloc, hget, if_true, ok_inj] at h2
  subst h2
  have hgb : ∀ n, (Dict.set s.binds rn [s.objs.length]).get? n = if rn = n then some [s.objs.length] else s.binds.get? n := fun n => Dict.get?_set ..
  have hnew : (s.objs ++ [(⟨raw, rn, .none, .none, .none, [], none⟩ : Bind)])[s.objs.length]? = some ⟨raw, rn, .none, .none, .none, [], none⟩ := by simp
  have hold : ∀ (j : Nat) (b : Bind), s.objs[j]? = some b → (s.objs ++ [(⟨raw, rn, .none, .none, .none, [], none⟩ : Bind)])[j]? = some b := by
    intro j b h
    rw [List.getElem?_append_left (lt_of_get h), h]
  refine ⟨rn, t, rfl, by rw [Dict.has_eq]; exact hno, ht, by simp [hget], ?_, ?_, rfl, hrX⟩
  · obtain ⟨f, hf, hfo⟩ := hc.frame
    have hne : ∀ x, K.X x → rn ≠ x := fun x h e => hrX (e ▸ h)
    refine BaStep.octx (s' := { s with rename := r, terms := Dict.set s.terms rn { t with name := rn, types := [.rename] }, binds := Dict.set s.binds rn [s.objs.length], objs := s.objs ++ [⟨raw, rn, .none, .none, .none, [], none⟩] }) ?_ _
    refine ⟨⟨⟨?_, ?_, hw.nore, hw.fuel, ?_, ?_, ?_⟩, ?_, ?_, by simp, fun _ h => h.elim, ?_, ?_, fun _ h => h.elim, ?_, ?_⟩, rfl, fun _ _ => rfl, ⟨f, f.blocking, hf, hf, hfo⟩, fun _ _ => rfl, fun _ h => h.elim⟩
    · intro n t' h
      have := hw.ext n t' h
      simp only [hget]
      rw [if_neg (by rintro rfl; rw [hno'] at this; cases this)]
      exact this
    · constructor
      · intro ls l n hl
        simp only [Dict.has_eq, hget]
        rw [if_neg, ← Dict.has_eq]
        · exact hw.flat.1 ls l n hl
        · rw [hnm, hx]
          intro e
          have := congrArg List.length e
          simp at this
      · intro n t' h
        simp only [hget] at h
        split at h
        · cases h; rfl
        · exact hw.flat.2 n t' h
    · intro n ids h
      simp only [hgb] at h
      simp only [Dict.has_eq, hget]
      split at h
      · rename_i e; rw [if_pos e]; rfl
      · rename_i e; rw [if_neg e, ← Dict.has_eq]; exact hw.keys n ids h
    · intro n ids h i hi
      simp only [hgb] at h
      split at h
      · rename_i e; cases h; subst e
        simp only [List.mem_singleton] at hi; subst hi
        exact ⟨_, hnew, rfl⟩
      · obtain ⟨b, h1, h2⟩ := hw.objs n ids h i hi
        exact ⟨b, hold _ _ h1, h2⟩
    · intro y ids hY h
      simp only [hgb] at h
      rw [if_neg (hne y hY)] at h
      obtain ⟨i, b, h1, h2, h3⟩ := hw.tabs y ids hY h
      exact ⟨i, b, h1, hold _ _ h2, h3⟩
    · intro n t' h
      simp only [hget]
      rw [if_neg (by rintro rfl; rw [hno'] at h; cases h)]
      exact h
    · intro n _ h
      simp only [hgb]
      rw [if_neg (by rintro rfl; rw [Dict.has_eq, hno'] at h; cases h)]
    · intro y i hY h
      simpa [BV.tid, hgb, hne y hY] using h
    · intro y i hY h h'
      simp only [BV.tid, hgb, hne y hY, if_false] at h h'
      rw [h] at h'; cases h'
    · intro y _ hY
      simp [BV.tid, hgb, hne y hY]
    · intro j b h
      exact ⟨b.tree, hold _ _ h, .inl rfl⟩
  · refine ⟨⟨raw, rn, .none, .none, .none, [], none⟩, ?_, rfl⟩
    simp only [BV.getBindlist, BV.deref, hgb, if_true, Option.getD_some, List.filterMap_cons, List.filterMap_nil, hnew]

/-- The assignment of the intermediate signal enters the table and the frame. -/
theorem flow_ba (hw : BaWF K s) (hf : BaFr K s c) (hK : K.OK) (hc : BaChain K s.frames c p) {x : ScopeChain} (hX : K.X x) {rn : ScopeChain} {d : PDst}
    (hd : d.name = some rn) {p' : CondPath}
    (h : BV.setRenamedFlow1 p' 1 c (some K.info) s (⟨⟨some x, .none, .none, .none⟩, .none, .none⟩, d) = .ok s') :
    BaStep K s s' c (fun y => y = x) ∧ bindTree s.reo (s.treeOf x) p' (.term rn) = .ok (s'.treeOf x) := by
  simp only [BV.setRenamedFlow1, hd, bind_ok] at h
  obtain ⟨b, hb, h⟩ := h
  simp only [BV.makeBind, bind_ok, ok_inj, gt_iff_lt, lt_self_iff_false, if_false] at hb
  obtain ⟨t, ht, _, rfl, rfl⟩ := hb
  have hcur : (match (s.getBindlist x).find? (fun c => c.msb = .none ∧ c.lsb = .none ∧ c.ptr = .none) with
      | some b => b.tree | none => .none) = s.treeOf x := by
    rcases hw.bindlist hX with ⟨-, h⟩ | ⟨i, b, -, -, -, hb, -, h⟩
    · simp [BV.treeOf, h]
    · obtain ⟨h1, h2, h3⟩ := hb
      simp [BV.treeOf, h, h1, h2, h3]
  replace ht : bindTree s.reo (s.treeOf x) p' (.term rn) = .ok t := by rw [← hcur]; exact ht
  obtain ⟨f, hfc, hfo⟩ := hc.frame
  obtain ⟨tt, htt, -⟩ := hK.decl x hX
  have hdecl : s.terms.has x = true := by rw [Dict.has_eq, hw.ext x tt htt]; rfl
  obtain ⟨w1, ⟨e1, e2, e3, e4⟩, ⟨i, hi, hi'⟩, htr, hobj, hnew, hbn⟩ := addBind_ba (b := ⟨t, x, .none, .none, .none, [], some K.info⟩) hw hX hdecl rfl ⟨rfl, rfl, rfl⟩ rfl rfl
  generalize hs1 : (s.alloc ⟨t, x, .none, .none, .none, [], some K.info⟩).addBindObj x s.objs.length ⟨t, x, .none, .none, .none, [], some K.info⟩ = s1 at *
  simp only at h
  have hent : ∀ c y, s1.ent c y = s.ent c y := fun c y => by simp [BV.ent, e1]
  obtain ⟨w2, ⟨g1, g2, g3, g4⟩, gf, ⟨bl, gb1, gb2⟩, ⟨e, he, he'⟩, gy, gobj⟩ := setBlocking_ba w1 (by rw [e1]; exact hfc) hfo hX (b := ⟨t, x, .none, .none, .none, [], some K.info⟩) ⟨rfl, rfl, rfl⟩
    (by
      intro e he
      rw [hent] at he
      obtain ⟨b', h1, -, h3⟩ := hf c hc.under (List.prefix_refl _) x e he
      exact ⟨_, hobj e b' h1, h3⟩) h
  rw [hent] at he'
  have htid : ∀ y, s'.tid y = s1.tid y := fun y => by simp [BV.tid, g1]
  have htid1 : ∀ y, y ≠ x → s1.tid y = s.tid y := fun y hy => by simp [BV.tid, hbn y hy]
  -- objects
  have ho : ∀ (j : Nat) (b' : Bind), s.objs[j]? = some b' →
      s'.objs[j]? = some { b' with tree := if s.ent c x = some j then t else if s.tid x = some j then t else b'.tree } := by
    intro j b' hb'
    rw [gobj j _ (hobj j b' hb')]
    simp only [hent]
  have hn : s'.objs[s.objs.length]? = some ⟨t, x, .none, .none, .none, [], some K.info⟩ := by
    rw [gobj _ _ hnew]
    simp
  have htree : s'.treeOf x = t := by
    have hti : s'.tid x = some i := by rw [htid, hi]
    rcases hi' with hi' | ⟨hi', rfl⟩
    · obtain ⟨-, b', hb', -⟩ := hw.tid_obj hX hi'
      rw [w2.treeOf_some hX hti (ho i b' hb')]
      simp [hi']
    · rw [w2.treeOf_some hX hti hn]
  refine ⟨⟨⟨w2, ?_, ?_, by omega, ?_, ?_, ?_, ?_, ?_, ?_⟩, by rw [g2, e2], ?_, ⟨f, bl, hfc, gb1, gb2⟩, ?_, ?_⟩, ?_⟩
  · intro n t' h; rw [g3, e3]; exact h
  · intro n hnX _
    rw [g1, hbn n (fun e => hnX (e ▸ hX))]
  · rintro y rfl; exact hX
  · intro y j hY hj
    rw [htid]
    by_cases e : y = x
    · subst e
      rcases hi' with hi' | ⟨hi', -⟩
      · rw [hj] at hi'; cases hi'; exact hi
      · rw [hj] at hi'; cases hi'
    · rw [htid1 y e]; exact hj
  · intro y j hY h0 hj
    rw [htid] at hj
    by_cases e : y = x
    · subst e
      rw [hi] at hj; cases hj
      rcases hi' with hi' | ⟨-, rfl⟩
      · rw [h0] at hi'; cases hi'
      · exact Nat.le_refl _
    · rw [htid1 y e, h0] at hj; cases hj
  · rintro y rfl
    rw [htid, hi]; simp
  · intro y hy _
    rw [htid, htid1 y hy]
  · intro j b' hb'
    refine ⟨_, ho j b' hb', ?_⟩
    by_cases hd : s.ent c x = some j
    · obtain ⟨b2, k1, k2, -⟩ := hf c hc.under (List.prefix_refl _) x j hd
      rw [hb'] at k1; cases k1
      exact .inr ⟨k2, .inr (by rw [k2]; exact hd)⟩
    · rw [if_neg hd]
      by_cases hd2 : s.tid x = some j
      · obtain ⟨-, b2, k1, k2, -⟩ := hw.tid_obj hX hd2
        rw [hb'] at k1; cases k1
        exact .inr ⟨k2, .inl (by rw [k2]; exact hd2)⟩
      · rw [if_neg hd2]; exact .inl rfl
  · intro c' hc'
    rw [gf c' (by rintro rfl; exact hc' (List.prefix_refl _)), e1]
  · intro y hy
    rw [gy y hy, hent]
  · rintro y rfl
    rcases he' with he' | ⟨he', rfl⟩
    · obtain ⟨b', k1, k2, k3⟩ := hf c hc.under (List.prefix_refl _) y e he'
      exact ⟨e, _, he, ho e b' k1, k2, k3, by simp [he', htree], .inl he'⟩
    · exact ⟨_, _, he, hn, rfl, ⟨rfl, rfl, rfl⟩, by simp [htree], .inr ⟨he', Nat.le_refl _⟩⟩
  · rw [htree]; exact ht

/-- A blocking assignment to a whole signal. -/
theorem assign_ba (hw : BaWF K s) (hf : BaFr K s c) (hK : K.OK) (hc : BaChain K s.frames c p) (hcur : s.current = c) {n : Str} {r : Ex} {x : ScopeChain}
    (hx : K.res n = some x) (hX : K.X x) (h : (Stmt.ba (.ident [] n) r).visit s = .ok s') :
    BaStep K s s' c (fun y => y = x) ∧ ∃ p' raw rn t, K.A.path p = .ok p' ∧ s.getTree r c = .ok raw ∧ s.path c = .ok p' ∧
      bindTree s.reo (s.treeOf x) p' (.term rn) = .ok (s'.treeOf x) ∧ s.terms.has rn = false ∧ s.terms.get? x = some t ∧
      s'.terms.get? rn = some { t with name := rn, types := [.rename] } ∧ (∃ b, s'.getBindlist rn = [b] ∧ b.tree = raw) := by
  simp only [Stmt.visit, bind_ok] at h
  obtain ⟨a, ha, h⟩ := h
  rw [hcur] at ha
  have := alwaysStatus_ba hc _ _ ha
  subst this
  simp only [BV.addBindBlocking, bind_ok] at h
  obtain ⟨⟨ds, s0⟩, hds, h⟩ := h
  rw [hcur] at hds
  obtain ⟨rfl, rfl⟩ := getDestinations_ba hc hw.flat (hw.res_mono hx) hds
  simp only [BV.addBlocking, hcur, bind_ok, BV.renameDsts] at h
  obtain ⟨p', hp', raw, hraw, ⟨rd, s1⟩, ⟨⟨d, s1'⟩, hren, ⟨ds', s1''⟩, hnil, hrd⟩, s2, h2, s3, h3, h⟩ := h
  simp only [ok_inj, Prod.mk.injEq] at hnil hrd
  obtain ⟨rfl, rfl⟩ := hnil
  obtain ⟨rfl, rfl⟩ := hrd
  simp only [List.foldlM_cons, List.foldlM_nil, bind_ok, py_pure, ok_inj, List.length_cons, List.length_nil, Nat.zero_add, List.zip_cons_cons, List.zip_nil_left] at h2 h3
  obtain ⟨s2', h2, e2⟩ := h2
  obtain ⟨s3', h3, e3⟩ := h3
  subst s2' s3'
  have hxm : x = K.mod ++ [⟨n, .signal, none⟩] := by
    simp only [BaEnv.res, resOf] at hx
    split at hx
    · cases hx; rfl
    · cases hx
  obtain ⟨rn, t, r1, r2, r3, r4, r5, ⟨b, r6, r7⟩, r8, r9⟩ := rename_ba hw hK hc hX hxm hren h2
  have hc2 : BaChain K s2.frames c p := r5.chain hc
  obtain ⟨f1, f2⟩ := flow_ba r5.keeps.wf (r5.fr hf) hK hc2 hX r1 h3
  have st := (r5.trans f1).congr (asg' := fun y => y = x) (fun y => by simp)
  have hs' : ∃ o, s' = { s3 with octx := o } := by
    simp only [BV.setLoopConst, bind_ok, ok_inj] at h
    obtain ⟨_, _, _, _, rfl⟩ := h
    exact ⟨_, rfl⟩
  obtain ⟨o, rfl⟩ := hs'
  refine ⟨st.octx o, p', raw, rn, t, condflow_ba hK hw hc hp', hraw, hp', ?_, r2, r3, ?_, b, ?_, r7⟩
  · have e1 : s2.reo = s0.reo := by funext z; simp only [BV.reo, r5.keeps.wf.fuel, hw.fuel]
    have e2 : s2.treeOf x = s0.treeOf x := r5.keeps.tree0 hw hX (fun h => h)
    rw [e1, e2] at f2
    exact f2
  · exact f1.keeps.term _ _ r4
  · have hh : s2.terms.has rn = true := by rw [Dict.has_eq, r4]; rfl
    have hb := f1.keeps.bnd rn r9 hh
    simp only [BV.getBindlist] at r6 ⊢
    show s3.deref ((s3.binds.get? rn).getD []) = [b]
    rw [hb]
    cases hq : s2.binds.get? rn with
    | none => rw [hq] at r6; exact absurd r6 (by simp [BV.deref])
    | some ids =>
      rw [hq] at r6
      simp only [Option.getD_some] at r6 ⊢
      rw [← r6]
      simp only [BV.deref]
      have hall : ∀ i ∈ ids, s3.objs[i]? = s2.objs[i]? := by
        intro i hi
        obtain ⟨b', k1, k2⟩ := r5.keeps.wf.objs rn ids hq i hi
        obtain ⟨t', k3, k4⟩ := f1.keeps.obj i b' k1
        rw [k3, k1]
        rcases k4 with rfl | ⟨k4, -⟩
        · rfl
        · rw [k2] at k4; subst k4; exact absurd hX r9
      clear r6 hq
      induction ids with
      | nil => rfl
      | cons i ids ih =>
        simp only [List.filterMap_cons, hall i (by simp)]
        split
        · exact ih (fun i hi => hall i (by simp [hi]))
        · rw [ih (fun i hi => hall i (by simp [hi]))]

end

end Pyv
