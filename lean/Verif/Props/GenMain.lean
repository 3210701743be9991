import Verif.Props.GenInst
/-
  C85: the pass opens the scopes of the specification.
-/
namespace Pyv

/-- The pass carries out a part of an elaboration. -/
def Runs (T : ModTable) (k : Nat) (σ : GEnv) : GWork → SV → SV → Prop
  | .items is, s, s' => MItem.scanList T (SV.visitModule T k) is s = .ok s'
  | .loop i a c next b, s, s' => ∃ label fuel, SV.forLoop label c (.ident [] i) next (MItem.scan T (SV.visitModule T k) b) fuel a s = .ok s'
  | .copies m ps ns, s, s' => ∃ ns1 l ns2 s1, ns = ns1 ++ ns2 ∧ InstNames σ l ns2 ∧
      ns1.foldlM (fun (st : SV) n => st.visitInstBody T (SV.visitModule T k) m ps n) s = .ok s1 ∧
      l.foldlM (SV.visitInst T (SV.visitModule T k) m ps) s1 = .ok s'

theorem intAttr_evi (v : Int) (w : Option Int) : (DF.evi v w).intAttr = .ok v := rfl

theorem foldlM_const {α : Type} {F : SV → α → Py SV} (hF : ∀ s a s', F s a = .ok s' → s' = s) : ∀ (l : List α) (s s' : SV),
    l.foldlM F s = .ok s' → s' = s := by
  intro l
  induction l with
  | nil => intro s s' h; simp only [List.foldlM_nil, py_pure, ok_inj] at h; exact h.symm
  | cons a l ih =>
    intro s s' h
    rw [List.foldlM_cons] at h
    obtain ⟨s1, h1, h⟩ := bind_ok.mp h
    have e := hF _ _ _ h1
    rw [e] at h
    exact ih _ _ h

/-- An instance array. -/
theorem visitInst_array {T : ModTable} {rec : SV → Str → Py SV} {m ps} {s s' : SV} {g σ} {i : Inst} {me le hi lo} (hr : s.Ready g σ)
    (ha : i.array = some (me, le)) (hhi : ConstVal σ me hi) (hlo : ConstVal σ le lo) (h : SV.visitInst T rec m ps s i = .ok s') :
    ((List.range (hi + 1 - lo).toNat).map (fun (k : Nat) => i.name ++ ['_'] ++ intStr (lo + k))).foldlM
      (fun (st : SV) n => st.visitInstBody T rec m ps n) s = .ok s' := by
  unfold SV.visitInst at h
  rw [ha] at h
  simp only at h
  split at h
  · simp at h
  · obtain ⟨x, hx, h⟩ := bind_ok.mp h
    obtain ⟨w, rfl⟩ := SV.eval_val hr.env.weaken hhi hx
    rw [intAttr_evi, ok_bind] at h
    obtain ⟨y, hy, h⟩ := bind_ok.mp h
    obtain ⟨w, rfl⟩ := SV.eval_val hr.env.weaken hlo hy
    rw [intAttr_evi, ok_bind] at h
    rw [List.foldlM_map]
    exact h

/-- No names, no instances. -/
theorem insts_nil {T : ModTable} {rec : SV → Str → Py SV} {m ps} {g σ} : ∀ (l : List Inst) (s s' : SV), s.Ready g σ → InstNames σ l [] →
    l.foldlM (SV.visitInst T rec m ps) s = .ok s' → s' = s := by
  intro l
  induction l with
  | nil => intro s s' _ _ h; simp only [List.foldlM_nil, py_pure, ok_inj] at h; exact h.symm
  | cons i l ih =>
    intro s s' hr hn h
    rw [List.foldlM_cons] at h
    obtain ⟨s1, h1, h⟩ := bind_ok.mp h
    generalize hns : ([] : List Str) = ns0 at hn
    cases hn with
    | one => simp at hns
    | array ha hhi hlo hn =>
      have := visitInst_array hr ha hhi hlo h1
      rw [eq_comm, List.append_eq_nil_iff] at hns
      rw [hns.1] at this
      simp only [List.foldlM_nil, py_pure, ok_inj] at this
      subst this
      rw [hns.2] at hn
      exact ih _ _ hr hn h

/-- The first name. -/
theorem insts_cons {T : ModTable} {rec : SV → Str → Py SV} {m ps} {g σ n ns} : ∀ (l : List Inst) (s s' : SV), s.Ready g σ → InstNames σ l (n :: ns) →
    l.foldlM (SV.visitInst T rec m ps) s = .ok s' → ∃ ns1 l' ns2 s0 s1, ns = ns1 ++ ns2 ∧ InstNames σ l' ns2 ∧
      s.visitInstBody T rec m ps n = .ok s0 ∧ ns1.foldlM (fun (st : SV) n => st.visitInstBody T rec m ps n) s0 = .ok s1 ∧
      l'.foldlM (SV.visitInst T rec m ps) s1 = .ok s' := by
  intro l
  induction l with
  | nil => intro s s' _ hn; cases hn
  | cons i l ih =>
    intro s s' hr hn h
    rw [List.foldlM_cons] at h
    obtain ⟨s1, h1, h⟩ := bind_ok.mp h
    generalize hns : n :: ns = ns0 at hn
    cases hn with
    | one ha hn =>
      simp only [List.cons.injEq] at hns
      obtain ⟨rfl, rfl⟩ := hns
      refine ⟨[], l, ns, s1, s1, rfl, hn, ?_, rfl, h⟩
      unfold SV.visitInst at h1
      rw [ha] at h1
      exact h1
    | array ha hhi hlo hn =>
      have hb := visitInst_array hr ha hhi hlo h1
      generalize (List.map _ _ : List Str) = ns1 at hb hns
      cases ns1 with
      | nil =>
        simp only [List.foldlM_nil, py_pure, ok_inj] at hb
        subst hb
        rw [List.nil_append] at hns
        subst hns
        exact ih _ _ hr hn h
      | cons a ns1 =>
        simp only [List.cons_append, List.cons.injEq] at hns
        obtain ⟨rfl, rfl⟩ := hns
        rw [List.foldlM_cons] at hb
        obtain ⟨s0, h0, hb⟩ := bind_ok.mp hb
        exact ⟨ns1, l, _, s0, s1, rfl, hn, h0, hb, h⟩

theorem scan_one {T : ModTable} {rec : SV → Str → Py SV} {b : MItem} {s s' : SV} (h : MItem.scan T rec b s = .ok s') :
    MItem.scanList T rec [b] s = .ok s' := by
  simp only [MItem.scanList]
  exact bind_ok.mpr ⟨s', h, rfl⟩

theorem runs_grew {ms : List ModuleDef} {T : ModTable} (hT : TableOK ms T) (hV : VarsOK T) {g σ w σ' ds sc}
    (h : Opens ms (0 ≤ ·) g σ w σ' ds sc) : ∀ (k : Nat) (s s' : SV), s.Ready g σ → Runs T k σ w s s' → Grew s s' σ σ' ds sc := by
  induction h with
  | nil =>
    intro k s s' hr h
    simp only [Runs, MItem.scanList, ok_inj] at h; subst h
    exact Grew.quiet hr rfl rfl rfl rfl rfl
  | decl hd _ ih =>
    intro k s s' hr h
    simp only [Runs, MItem.scanList] at h
    obtain ⟨s1, h1, h⟩ := bind_ok.mp h
    simp only [MItem.scan] at h1
    have G := visitNodes_grew _ hr hd h1
    simpa using G.trans (ih k s1 s' (G.ready hr) h)
  | assign _ ih =>
    intro k s s' hr h
    simp only [Runs, MItem.scanList, MItem.scan, ok_bind] at h
    exact ih k s s' hr h
  | initial _ ih =>
    intro k s s' hr h
    simp only [Runs, MItem.scanList, MItem.scan, ok_bind] at h
    exact ih k s s' hr h
  | always hl _ ih =>
    intro k s s' hr h
    simp only [Runs, MItem.scanList] at h
    obtain ⟨s1, h1, h⟩ := bind_ok.mp h
    simp only [MItem.scan] at h1
    obtain ⟨r, hl1, h1⟩ := bind_ok.mp h1
    obtain ⟨f, hf, h1⟩ := bind_ok.mp h1
    have G := label_grew hr hl1
    obtain ⟨q, hc⟩ := inside_always (scan_always _ hl) h1 rfl
    have G1 := G.nil_trans (q.grew (G.ready hr) hc)
    exact G1.nil_trans (ih k s1 s' (G1.ready hr) h)
  | insts hn _ _ ih1 ih2 =>
    intro k s s' hr h
    simp only [Runs, MItem.scanList] at h
    obtain ⟨s1, h1, h⟩ := bind_ok.mp h
    simp only [MItem.scan] at h1
    have G := ih1 k s s1 hr ⟨[], _, _, s, rfl, hn, rfl, h1⟩
    simpa using G.trans (ih2 k s1 s' (G.ready hr) h)
  | gen _ _ ih1 ih2 =>
    intro k s s' hr h
    simp only [Runs, MItem.scanList] at h
    obtain ⟨s1, h1, h⟩ := bind_ok.mp h
    simp only [MItem.scan] at h1
    obtain ⟨r, hl1, h1⟩ := bind_ok.mp h1
    have G := label_grew hr hl1
    have G1 := G.nil_trans (Grew.inside (G.ready hr) h1 rfl rfl rfl rfl .gen (fun a b hr hb => ih1 k a b hr hb))
    simpa using G1.trans (ih2 k s1 s' (G1.ready hr) h)
  | gifTrue hc hv hok _ _ ih1 ih2 =>
    intro k s s' hr h
    simp only [Runs, MItem.scanList] at h
    obtain ⟨s1, h1, h⟩ := bind_ok.mp h
    simp only [MItem.scan] at h1
    have h1 := visitIf_cond hr hc h1
    rw [if_pos (by omega)] at h1
    simp only [Bool.false_eq_true, if_false] at h1
    obtain ⟨r, hl1, h1⟩ := bind_ok.mp h1
    have G := label_grew hr hl1
    have G1 := G.nil_trans (side_grew (first := true) (G.ready hr) h1 .first (fun a b hr hb => ih1 k a b hr (scan_one hb)))
    simpa using G1.trans (ih2 k s1 s' (G1.ready hr) h)
  | gifFalse hc _ ih =>
    intro k s s' hr h
    simp only [Runs, MItem.scanList] at h
    obtain ⟨s1, h1, h⟩ := bind_ok.mp h
    simp only [MItem.scan] at h1
    have h1 := visitIf_cond hr hc h1
    rw [if_neg (by omega)] at h1
    obtain ⟨r, hl1, h1⟩ := bind_ok.mp h1
    simp only [if_true, ok_inj] at h1
    subst h1
    have G := label_grew hr hl1
    exact G.nil_trans (ih k _ s' (G.ready hr) h)
  | gifeTrue hc hv hok _ _ ih1 ih2 =>
    intro k s s' hr h
    simp only [Runs, MItem.scanList] at h
    obtain ⟨s1, h1, h⟩ := bind_ok.mp h
    simp only [MItem.scan] at h1
    have h1 := visitIf_cond hr hc h1
    rw [if_pos (by omega)] at h1
    simp only [Bool.false_eq_true, if_false] at h1
    obtain ⟨r, hl1, h1⟩ := bind_ok.mp h1
    have G := label_grew hr hl1
    have G1 := G.nil_trans (side_grew (first := true) (G.ready hr) h1 .first (fun a b hr hb => ih1 k a b hr (scan_one hb)))
    simpa using G1.trans (ih2 k s1 s' (G1.ready hr) h)
  | gifeFalse hc _ _ ih1 ih2 =>
    intro k s s' hr h
    simp only [Runs, MItem.scanList] at h
    obtain ⟨s1, h1, h⟩ := bind_ok.mp h
    simp only [MItem.scan] at h1
    have h1 := visitIf_cond hr hc h1
    rw [if_neg (by omega)] at h1
    simp only [Bool.false_eq_true, if_false] at h1
    obtain ⟨r, hl1, h1⟩ := bind_ok.mp h1
    have G := label_grew hr hl1
    have G1 := G.nil_trans (side_grew (first := false) (G.ready hr) h1 .second (fun a b hr hb => ih1 k a b hr (scan_one hb)))
    simpa using G1.trans (ih2 k s1 s' (G1.ready hr) h)
  | gblock _ _ ih1 ih2 =>
    intro k s s' hr h
    simp only [Runs, MItem.scanList] at h
    obtain ⟨s1, h1, h⟩ := bind_ok.mp h
    simp only [MItem.scan] at h1
    have G1 := visitBlock_grew hr h1 (fun a b hr hb => ih1 k a b hr hb)
    simpa using G1.trans (ih2 k s1 s' (G1.ready hr) h)
  | gfor he hp _ _ ih1 ih2 =>
    intro k s s' hr h
    simp only [Runs, MItem.scanList] at h
    obtain ⟨s1, h1, h⟩ := bind_ok.mp h
    simp only [MItem.scan, SV.visitFor] at h1
    obtain ⟨x, hx, h1⟩ := bind_ok.mp h1
    obtain ⟨w, rfl⟩ := SV.eval_val hr.env.weaken he hx
    rw [intAttr_evi, ok_bind] at h1
    obtain ⟨s2, h2, h1⟩ := bind_ok.mp h1
    obtain ⟨r, hl1, h1⟩ := bind_ok.mp h1
    have G0 := assignIter_grew hr he hp h2
    have G := G0.nil_trans (label_grew (G0.ready hr) hl1)
    have G1 := G.nil_trans (ih1 k _ _ (G.ready hr) ⟨r.1, _, h1⟩)
    simpa using G1.trans (ih2 k s1 s' (G1.ready hr) h)
  | stop hc =>
    intro k s s' hr h
    obtain ⟨label, fuel, h⟩ := h
    cases fuel with
    | zero => simp [SV.forLoop] at h
    | succ fuel =>
      simp only [SV.forLoop] at h
      obtain ⟨x, hx, h⟩ := bind_ok.mp h
      obtain ⟨w, rfl⟩ := SV.eval_val hr.env.weaken hc hx
      rw [if_neg (by simp [DF.isEv])] at h
      rw [intAttr_evi, ok_bind] at h
      rw [if_pos (by omega), ok_inj] at h
      subst h
      exact Grew.quiet hr rfl rfl rfl rfl rfl
  | @turn g σ i a c next b v d σ1 ds sc a' σ2 σ3 sc3 hc hv hok _ hnext hp _ ih1 ih2 =>
    intro k s s' hr h
    obtain ⟨label, fuel, h⟩ := h
    cases fuel with
    | zero => simp [SV.forLoop] at h
    | succ fuel =>
      simp only [SV.forLoop] at h
      obtain ⟨x, hx, h⟩ := bind_ok.mp h
      obtain ⟨w, rfl⟩ := SV.eval_val hr.env.weaken hc hx
      rw [if_neg (by simp [DF.isEv])] at h
      rw [intAttr_evi, ok_bind] at h
      rw [if_neg (by omega)] at h
      obtain ⟨f, hf, h⟩ := bind_ok.mp h
      obtain ⟨s1, h1, h⟩ := bind_ok.mp h
      obtain ⟨hg, ha⟩ := Ready.child hr hf
      have G1 := Grew.inside (p := .turn a) hr h1 rfl hg ha rfl .turn (fun x y hr hb => ih1 k x y hr (scan_one hb))
      have r1 := G1.ready hr
      obtain ⟨y, hy, h⟩ := bind_ok.mp h
      obtain ⟨w', rfl⟩ := SV.eval_val r1.env.weaken hnext hy
      rw [intAttr_evi, ok_bind] at h
      obtain ⟨s2, h2, h⟩ := bind_ok.mp h
      have G2 := assignIter_grew r1 hnext hp h2
      have G3 := G2.nil_trans (ih2 k _ _ (G2.ready r1) ⟨label, _, h⟩)
      simpa using G1.trans G3
  | @gate g σ m ps ns hm =>
    intro k s s' hr h
    obtain ⟨ns1, l, ns2, s1, _, _, h1, h2⟩ := h
    obtain ⟨p, hp⟩ := Option.isSome_iff_exists.mp hm
    have hb : ∀ (s : SV) (n : Str) (s' : SV), s.visitInstBody T (SV.visitModule T k) m ps n = .ok s' → s' = s := by
      intro s n s' h
      unfold SV.visitInstBody at h
      rw [hp] at h
      simp only [ok_inj] at h
      exact h.symm
    have e1 := foldlM_const (F := fun (st : SV) n => st.visitInstBody T (SV.visitModule T k) m ps n) hb _ _ _ h1
    have e2 := foldlM_const (F := SV.visitInst T (SV.visitModule T k) m ps) (by
      intro s i s' h
      unfold SV.visitInst at h
      split at h
      · exact hb _ _ _ h
      · split at h
        · simp at h
        · obtain ⟨_, _, h⟩ := bind_ok.mp h
          obtain ⟨_, _, h⟩ := bind_ok.mp h
          obtain ⟨_, _, h⟩ := bind_ok.mp h
          obtain ⟨_, _, h⟩ := bind_ok.mp h
          exact foldlM_const (fun s a s' h => hb _ _ _ h) _ _ _ h) _ _ _ h2
    rw [e2, e1]
    exact Grew.quiet hr rfl rfl rfl rfl rfl
  | done =>
    intro k s s' hr h
    obtain ⟨ns1, l, ns2, s1, e, hn, h1, h2⟩ := h
    rw [eq_comm, List.append_eq_nil_iff] at e
    rw [e.1] at h1
    simp only [List.foldlM_nil, py_pure, ok_inj] at h1
    subst h1
    rw [e.2] at hn
    rw [insts_nil l _ _ hr hn h2]
    exact Grew.quiet hr rfl rfl rfl rfl rfl
  | @inst g σ m ps n ns M ov d0 d ds sc sc2 hm hM hnd ho hd hO _ ih1 ih2 =>
    intro k s s' hr h
    obtain ⟨ns1, l, ns2, s1, e, hn, h1, h2⟩ := h
    have key : ∃ s0, s.visitInstBody T (SV.visitModule T k) m ps n = .ok s0 ∧ Runs T k σ (.copies m ps ns) s0 s' := by
      cases ns1 with
      | nil =>
        simp only [List.foldlM_nil, py_pure, ok_inj] at h1
        subst h1
        rw [List.nil_append] at e
        rw [← e] at hn
        obtain ⟨ns1, l', ns2, s0, s1, e, hn', h0, h1, h2⟩ := insts_cons l _ _ hr hn h2
        exact ⟨s0, h0, ns1, l', ns2, s1, e, hn', h1, h2⟩
      | cons a ns1 =>
        simp only [List.cons_append, List.cons.injEq] at e
        obtain ⟨rfl, e⟩ := e
        rw [List.foldlM_cons] at h1
        obtain ⟨s0, h0, h1⟩ := bind_ok.mp h1
        exact ⟨s0, h0, ns1, l, ns2, s1, e, hn, h1, h2⟩
    obtain ⟨s0, h0, hrun⟩ := key
    have G := instance_grew hT hV hr hm hM hnd ho hd hO (fun k t t' hr h => ih1 k t t' hr h) h0
    simpa using G.trans (ih2 k s0 s' (G.ready hr) hrun)

end Pyv
