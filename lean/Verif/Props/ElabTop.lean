import Verif.Props.ElabGate
/-
  C75: a design as a system of equations.
-/
namespace Pyv

section
variable {D : Decls} {s s' : BV} {ms : List ModuleDef} {T : ModTable}

/-- The equations of an instance. -/
def instEqns (ms : List ModuleDef) (k : Nat) (m ch : ModuleDef) (sc : ScopeChain) (ps : List PArg) (i : Inst) : List Eqn :=
  ps.zipIdx.flatMap (paramEqns m sc (instScope sc i.name) ch.paramNames) ++
  i.ports.zipIdx.flatMap (portEqns m ch sc (instScope sc i.name)) ++
  flattenMod ms k (instScope sc i.name) (ps.zipIdx.filterMap (formal ch.paramNames)) ch

theorem nodup_split {a b : List Eqn} (h : ((a ++ b).map Eqn.target).Nodup) :
    (a.map Eqn.target).Nodup ∧ (b.map Eqn.target).Nodup ∧ ∀ q ∈ a, ∀ r ∈ b, q.target ≠ r.target := by
  rw [List.map_append, List.nodup_append] at h
  exact ⟨h.1, h.2.1, fun q hq r hr => h.2.2 _ (List.mem_map_of_mem hq) _ (List.mem_map_of_mem hr)⟩

/-- One instance. -/
theorem inst_does {sc : ScopeChain} {m ch : ModuleDef} {over : List Str} {k : Nat} {md : Str} {ps : List PArg} {i : Inst} (hD : DesignOK D)
    (hT : TableOK ms T) (hm : (sc, m.termTypes) ∈ D) (hs : (instScope sc i.name, ch.termTypes) ∈ D) (hch : findMod ms md = some ch)
    (hprim : primitiveOf md = none) (harr : i.array = none)
    (hps : ∀ p ∈ ps, (match p.arg with | some e => e.flat | none => false) = true)
    (hports : ∀ p ∈ i.ports.zipIdx, portCovered m.names ch p = true)
    (hnd : ((instEqns ms k m ch sc ps i).map Eqn.target).Nodup)
    (hrec : ∀ over', ((flattenMod ms k (instScope sc i.name) over' ch).map Eqn.target).Nodup →
      (∀ n ∈ over', sigAt (instScope sc i.name) n ∉ (flattenMod ms k (instScope sc i.name) over' ch).map Eqn.target) →
      Does D (instScope sc i.name) over' (fun s => s.visitModule T k md) (flattenMod ms k (instScope sc i.name) over' ch)) :
    Does D sc over (fun s => BV.visitInst T (BV.visitModule T k) md ps s i) (instEqns ms k m ch sc ps i) := by
  intro s s' hI hfree _ h
  simp only [BV.visitInst, harr, BV.visitInstBody, hprim] at h
  split at h
  · cases h
  · simp only [bind_ok, ok_inj] at h
    obtain ⟨m', hm', s1, h1, s2, h2, names, hnames, s3, h3, io, hio, s4, h4, s5, h5, s6, h6, rfl⟩ := h
    obtain ⟨g1, g2, g3⟩ := hT.getDefinition hm'
    rw [hch, Option.some.injEq] at g1
    subst g1
    rw [hnames, ok_inj] at g2
    rw [hio, ok_inj] at g3
    subst g2 g3
    -- the new frame
    simp only [BV.push, hI.cur] at h1
    split at h1
    · cases h1
    · rename_i hnew
      simp only [ok_inj] at h1
      rw [hI.cur] at h3 h4
      have hsubdef : instScope sc i.name = sc ++ [⟨i.name, .module, none⟩] := rfl
      rw [← hsubdef] at h1 hnew
      have hpre : sc <+: instScope sc i.name := List.prefix_append _ _
      have hsc0 := hI.ne
      have hcur1 : s1.current = instScope sc i.name := by rw [← h1]
      have hget : ∀ c', s1.frames.get? c' = if instScope sc i.name = c' then some { previous := sc, isModule := true } else s.frames.get? c' := by
        intro c'; rw [← h1]; exact Dict.get?_set ..
      have hprefix : ∀ c', c' <+: instScope sc i.name → c' = instScope sc i.name ∨ c' <+: sc := by
        intro c' hc'
        rcases Nat.lt_or_ge c'.length (instScope sc i.name).length with hl | hl
        · right
          refine List.prefix_of_prefix_length_le hc' hpre ?_
          simp only [instScope, List.length_append, List.length_cons, List.length_nil] at hl
          omega
        · left
          exact hc'.eq_of_length (Nat.le_antisymm hc'.length_le hl)
      have hI1 : Inv D (instScope sc i.name) s1 := by
        refine ⟨hcur1, by simp [instScope], ?_, by rw [← h1]; exact hI.nore, by rw [← h1]; exact hI.objs, by rw [← h1]; exact hI.terms,
          by rw [← h1]; exact hI.single⟩
        intro c' hc' hne
        unfold isModFrame
        rw [hget]
        rcases hprefix c' hc' with rfl | hp
        · exact ⟨_, if_pos rfl, rfl, rfl, rfl⟩
        · rw [if_neg (by rintro rfl; exact not_prefix_snoc (List.prefix_refl _) hp)]
          exact hI.frames c' hp hne
      rw [hcur1] at h2
      have o2 := copyFrameInfo_out hI1 hs h2
      have hfree1 : ∀ q ∈ instEqns ms k m ch sc ps i, s1.binds.get? q.target = none := by rw [← h1]; exact hfree
      have hfree2 : ∀ q ∈ instEqns ms k m ch sc ps i, s2.binds.get? q.target = none := fun q hq => (o2.keep _ (by simp)).1 (hfree1 q hq)
      unfold instEqns at hnd hfree2
      obtain ⟨n1, n2, n3⟩ := nodup_split hnd
      obtain ⟨n4, n5, n6⟩ := nodup_split n1
      have o3 := Does.fold' (over := []) ps.zipIdx (fun p hp _ _ =>
        instParam_does hD hm hs hsc0 hpre (hps p.1 (by
          obtain ⟨a, b⟩ := p
          exact List.fst_mem_of_mem_zipIdx hp))) n4 (by simp) s2 s3 o2.inv (fun q hq => hfree2 q (by simp only [List.mem_append]; exact .inl (.inl hq))) (by simp) h3
      have o4 := Does.fold' (over := []) i.ports.zipIdx (fun p hp hn _ => instPort_does hD hm hs hsc0 hpre (hports p hp) hn) n5 (by simp) s3 s4 o3.inv
        (fun q hq => (o3.keep _ (fun r hr => n6 r hr q hq)).1 (hfree2 q (by simp only [List.mem_append]; exact .inl (.inr hq)))) (by simp) h4
      rw [o4.inv.cur] at h5
      have o5 := copyFrameInfo_out o4.inv hs h5
      have o35 := (o3.seq o4 n6).seq o5 (by simp)
      rw [List.append_nil] at o35
      -- the overridden parameters
      have hov : ∀ n ∈ ps.zipIdx.filterMap (formal ch.paramNames), ∃ q ∈ ps.zipIdx.flatMap (paramEqns m sc (instScope sc i.name) ch.paramNames),
          q.target = sigAt (instScope sc i.name) n ∧ ∃ e, q.drv = .expr e := by
        intro n hn
        obtain ⟨p, hp, hf⟩ := List.mem_filterMap.mp hn
        have hp1 : p.1 ∈ ps := List.fst_mem_of_mem_zipIdx hp
        have := hps p.1 hp1
        cases ha : p.1.arg with
        | none => rw [ha] at this; cases this
        | some e =>
          exact ⟨⟨sigAt (instScope sc i.name) n, sc, m, .expr e⟩, List.mem_flatMap.mpr ⟨p, hp, by simp [paramEqns, hf, ha]⟩, rfl, e, rfl⟩
      have o6 := hrec _ n2 (by
          intro n hn hmem
          obtain ⟨q, hq, hqt, -⟩ := hov n hn
          obtain ⟨r, hr, hrt⟩ := List.mem_map.mp hmem
          exact n3 q (by simp only [List.mem_append]; exact .inl hq) r hr (hqt.trans hrt.symm)) s5 s6 o35.inv
        (fun q hq => (o35.keep _ (fun r hr => n3 r hr q hq)).1 (hfree2 q (by simp only [List.mem_append]; exact .inr hq)))
        (by
          intro n hn
          obtain ⟨q, hq, hqt, e, he⟩ := hov n hn
          have := o35.holds q (List.mem_append_left _ hq)
          simp only [Eqn.Holds, he] at this
          obtain ⟨b, hb, hw, -⟩ := this
          rw [hqt] at hb
          exact ⟨b, hb, hw⟩) h6
      have o := o2.after (o35.seq o6 n3)
      -- back in the parent
      have hfr : ∀ c', ¬ (sc <+: c' ∧ c' ≠ sc) → s6.frames.get? c' = s.frames.get? c' := by
        intro c' hc'
        rw [o.frames c' (fun hh => hc' ⟨hpre.trans hh.1, by
          rintro rfl
          exact not_prefix_snoc (List.prefix_refl _) hh.1⟩), hget, if_neg]
        rintro rfl
        exact hc' ⟨hpre, by simp [instScope]⟩
      refine ⟨⟨hI.cur ▸ rfl, hI.ne, ?_, o.inv.nore, o.inv.objs, o.inv.terms, o.inv.single⟩, hfr, ?_, o.holds⟩
      · intro c' hc' hne
        show isModFrame s6 c'
        exact o.inv.frames c' (hc'.trans hpre) hne
      · intro x hx
        have k1 : KeepX s s1 x := .of_eq (by rw [← h1]) (by rw [← h1])
        exact k1.trans (o.keep x hx)

theorem zipMap_mem {ps : List PArg} : ∀ p ∈ ps.zipIdx, p.1 ∈ ps := fun _ hp => List.fst_mem_of_mem_zipIdx hp

/-- The module at a place of the hierarchy. -/
theorem module_does (hD : DesignOK D) (hT : TableOK ms T) (hc : ∀ m ∈ ms, m.covered ms = true) (k : Nat) :
    ∀ (sc : ScopeChain) (name : Str) (m : ModuleDef) (over : List Str) (ds : Decls), declared T k sc name = .ok ds → (∀ d ∈ ds, d ∈ D) →
      findMod ms name = some m → ((flattenMod ms k sc over m).map Eqn.target).Nodup →
      (∀ n ∈ over, sigAt sc n ∉ (flattenMod ms k sc over m).map Eqn.target) →
      Does D sc over (fun s => s.visitModule T k name) (flattenMod ms k sc over m) := by
  induction k with
  | zero => intro sc name m over ds h; simp [declared] at h
  | succ k ih =>
    intro sc name m over ds hdecl hsubD hfind hnd ho
    simp only [declared, bind_ok, ok_inj] at hdecl
    obtain ⟨m', hm', rs, hrs, rfl⟩ := hdecl
    obtain ⟨g1, -, -⟩ := hT.getDefinition hm'
    rw [hfind, Option.some.injEq] at g1
    subst g1
    have hm : (sc, m.termTypes) ∈ D := hsubD _ (by simp)
    have hcov := hc m (findMod_mem hfind)
    simp only [ModuleDef.covered, Bool.and_eq_true, List.all_eq_true] at hcov
    obtain ⟨⟨hnodes, hitems⟩, -⟩ := hcov
    intro s s' hI hfree hover h
    simp only [BV.visitModule, bind_ok] at h
    obtain ⟨m'', hm'', s1, h1, s2, h2, h3⟩ := h
    rw [hm', ok_inj] at hm''
    subst hm''
    simp only [flattenMod] at hnd ho hfree ⊢
    obtain ⟨n1, n2, n3⟩ := nodup_split hnd
    -- the parameters
    have hov1 : ∀ n ∈ over, sigAt sc n ∉ ((m.params.flatten.map (DItem.param false)).flatMap (declEqns m sc over)).map Eqn.target := by
      intro n hn hmem
      exact ho n hn (by rw [List.map_append]; exact List.mem_append_left _ hmem)
    have hmemnode : ∀ d, d ∈ m.params.flatten.map (DItem.param false) ∨
        d ∈ m.ports.flatMap (fun p => match p with | .io f s => DItem.var f :: (s.map DItem.var).toList | _ => []) ∨
        d ∈ m.items.flatMap (fun i => match i with | .decl ds => ds | _ => []) → d ∈ m.nodes := by
      intro d hd
      simp only [ModuleDef.nodes, List.mem_append]
      tauto
    have o1 := Does.fold' _ (fun d hd _ _ => node_does hD hm (hmemnode d (.inl hd)) (hnodes d (hmemnode d (.inl hd)))) n1 hov1 s s1 hI
      (fun q hq => hfree q (by simp only [List.mem_append]; exact .inl hq)) hover h1
    have hover1 : ∀ n ∈ over, ∃ b, s1.getBindlist (sigAt sc n) = [b] ∧ b.whole := by
      intro n hn
      obtain ⟨b, hb, hw⟩ := hover n hn
      obtain ⟨b', e1, e2, _⟩ := (o1.keep (sigAt sc n) (fun q hq he => hov1 n hn (List.mem_map.mpr ⟨q, hq, he⟩))).2 b hb hw
      exact ⟨b', e1, e2⟩
    -- the ports
    have hnil : (m.ports.flatMap (fun p => match p with | .io f s => DItem.var f :: (s.map DItem.var).toList | _ => [])).flatMap (declEqns m sc over) = [] := by
      rw [List.flatMap_eq_nil_iff]
      intro d hd
      obtain ⟨p, _, hd⟩ := List.mem_flatMap.mp hd
      cases p with
      | io f x =>
        cases x with
        | none => simp only [Option.map_none, Option.toList_none, List.mem_singleton] at hd; subst hd; rfl
        | some y =>
          simp only [Option.map_some, Option.toList_some, List.mem_cons, List.not_mem_nil, or_false] at hd
          rcases hd with rfl | rfl <;> rfl
      | _ => simp at hd
    have o2 := Does.fold' (over := over) _ (fun d hd _ _ => node_does hD hm (hmemnode d (.inr (.inl hd))) (hnodes d (hmemnode d (.inr (.inl hd)))))
      (by rw [hnil]; simp) (by rw [hnil]; simp) s1 s2 o1.inv (by rw [hnil]; simp) hover1 h2
    rw [hnil] at o2
    have o12 := o1.seq o2 (by simp)
    rw [List.append_nil] at o12
    have hover2 : ∀ n ∈ over, ∃ b, s2.getBindlist (sigAt sc n) = [b] ∧ b.whole := by
      intro n hn
      obtain ⟨b, hb, hw⟩ := hover1 n hn
      obtain ⟨b', e1, e2, _⟩ := (o2.keep (sigAt sc n) (by simp)).2 b hb hw
      exact ⟨b', e1, e2⟩
    -- the items
    refine o12.seq (Does.fold' (over := over) m.items ?_ n2 ?_ s2 s' o12.inv
      (fun q hq => (o12.keep _ (fun r hr => n3 r hr q hq)).1 (hfree q (by simp only [List.mem_append]; exact .inr hq))) hover2 h3) n3
    · intro it hit hitnd hito
      have hic := hitems it hit
      cases it with
      | decl ds =>
        simp only [MItem.covered, List.all_eq_true] at hic
        exact Does.fold' _ (fun d hd _ _ => node_does hD hm (hmemnode d (.inr (.inr (List.mem_flatMap.mpr ⟨_, hit, hd⟩)))) (hic d hd)) hitnd hito
      | assign l r =>
        cases l with
        | ident sc' n =>
          cases sc' with
          | nil =>
            simp only [MItem.covered, Bool.and_eq_true, decide_eq_true_eq] at hic
            exact assign_does hD hm hic.1 hic.2
          | cons a as => simp [MItem.covered] at hic
        | _ => simp [MItem.covered] at hic
      | always kd ss b =>
        simp only [MItem.covered, Bool.and_eq_true, decide_eq_true_eq, List.all_eq_true] at hic
        obtain ⟨⟨rfl, hw⟩, hk⟩ := hic
        exact always_does hD hm hw hk
      | func _ _ _ _ => simp [MItem.covered] at hic
      | task _ _ _ => simp [MItem.covered] at hic
      | gen _ => simp [MItem.covered] at hic
      | gif _ _ => simp [MItem.covered] at hic
      | gife _ _ _ => simp [MItem.covered] at hic
      | gfor _ _ _ _ _ _ => simp [MItem.covered] at hic
      | gblock _ _ => simp [MItem.covered] at hic
      | initial b => exact Does.id
      | insts md ps is =>
        by_cases hg : md ∈ gateNames
        · simp only [MItem.covered, if_pos hg, List.all_eq_true] at hic
          simp only [if_pos hg] at hitnd hito ⊢
          exact Does.fold' (f := BV.visitInst T (BV.visitModule T k) md ps) (g := gateEqns m sc md) is
            (fun i hi _ _ => gate_does hD hm hg (hic i hi)) hitnd hito
        simp only [MItem.covered, if_neg hg, Bool.and_eq_true, List.all_eq_true, Option.isNone_iff_eq_none] at hic
        have hprim := not_gate hg
        obtain ⟨hps, his⟩ := hic
        simp only [if_neg hg] at hitnd hito ⊢
        have hin : ∀ i ∈ is, (md, i) ∈ m.insts := by
          intro i hi
          refine List.mem_flatMap.mpr ⟨_, hit, ?_⟩
          simp only [hprim, Option.isSome_none, Bool.false_eq_true, if_false]
          exact List.mem_map.mpr ⟨i, hi, rfl⟩
        have hchild : ∀ i ∈ is, ∃ ds', declared T k (instScope sc i.name) md = .ok ds' ∧ (∀ d ∈ ds', d ∈ D) := by
          intro i hi
          obtain ⟨r, hr, hr2⟩ := forall₂_mem_left (mapM_ok.mp hrs) _ (hin i hi)
          split at hr2
          · cases hr2
          · exact ⟨r, hr2, fun d hd => hsubD d (List.mem_cons_of_mem _ (List.mem_flatten.mpr ⟨r, hr, hd⟩))⟩
        cases hch : findMod ms md with
        | none =>
          -- no such module: there is no instance
          have : is = [] := by
            cases is with
            | nil => rfl
            | cons i is =>
              exfalso
              obtain ⟨ds', hds, -⟩ := hchild i (by simp)
              cases k with
              | zero => simp [declared] at hds
              | succ k =>
                simp only [declared, bind_ok] at hds
                obtain ⟨mm, hmm, -⟩ := hds
                rw [(hT.getDefinition hmm).1] at hch
                cases hch
          subst this
          simp only [hch]
          exact Does.id
        | some ch =>
          simp only [hch] at hitnd hito his ⊢
          refine Does.fold' (f := BV.visitInst T (BV.visitModule T k) md ps) (g := instEqns ms k m ch sc ps) is ?_ hitnd hito
          intro i hi hind _
          obtain ⟨ds', hds, hsub⟩ := hchild i hi
          have hi' := his i hi
          have hself : (instScope sc i.name, ch.termTypes) ∈ D := by
            cases k with
            | zero => simp [declared] at hds
            | succ k =>
              simp only [declared, bind_ok, ok_inj] at hds
              obtain ⟨mm, hmm, rs', -, rfl⟩ := hds
              have := (hT.getDefinition hmm).1
              rw [hch, Option.some.injEq] at this
              subst this
              exact hsub _ (by simp)
          exact inst_does hD hT hm hself hch hprim hi'.1 (fun p hp => hps p hp) (fun p hp => List.all_eq_true.mp hi'.2 p hp) hind
            (fun over' h1 h2 => ih _ md ch over' ds' hds hsub hch h1 h2)
    · intro n hn hmem
      exact ho n hn (by rw [List.map_append]; exact List.mem_append_right _ hmem)

end

end Pyv
