import Verif.Props.BaOpen
/-
  C74: values while an always block with blocking assignments is visited.
-/
namespace Pyv

/-- What a frame finds for an assigned signal has the value of its tree. -/
def VisOK (K : BaEnv) (τ : Env) (s : BV) (c : ScopeChain) : Prop :=
  ∀ x, K.X x →
    (∀ c' j, K.root <+: c' → c' <+: c → s.ent c' x = some j → (∀ d, c' <+: d → d <+: c → d ≠ c' → s.ent d x = none) →
      sched τ (s.trOf j) = sched τ (s.treeOf x)) ∧
    ((∀ d, K.root <+: d → d <+: c → s.ent d x = none) → sched τ (s.treeOf x) = some none)

/-- The trees give the values of `η`. -/
structure SemVal (K : BaEnv) (τ : Env) (s : BV) (η : Env) : Prop where
  val : ∀ x v, K.X x → η.sig x = some v → valOf τ x (s.treeOf x) = some v
  other : ∀ n, ¬ K.X n → η.sig n = τ.sig n
  arr : η.arr = τ.arr
  dw : η.dw = τ.dw

/-- The valuation fits the tables. -/
structure BaFits (K : BaEnv) (s : BV) (cut : DF → DF → Int × Int → Int × Int) (τ : Env) : Prop where
  arrays : s.ArraysAgree τ
  inter : K.s0.Intermediate s cut τ

/-- `s'` has what `s` has, up to the trees of the assigned signals. -/
structure Carries (K : BaEnv) (s s' : BV) : Prop where
  wf : BaWF K s
  term : ∀ n t, s.terms.get? n = some t → s'.terms.get? n = some t
  bnd : ∀ n, ¬ K.X n → s.terms.has n = true → s'.binds.get? n = s.binds.get? n
  obj : ∀ (j : Nat) (b : Bind), s.objs[j]? = some b → ∃ t, s'.objs[j]? = some { b with tree := t } ∧ (t = b.tree ∨ K.X b.dest)

section
variable {K : BaEnv} {s s' s1 s2 s'' : BV} {c d : ScopeChain} {p q : ExPath} {asg asg' : ScopeChain → Prop} {τ η : Env}
  {cut : DF → DF → Int × Int → Int × Int}

theorem BaKeeps.carries {E} (h : BaKeeps K s s' asg E) (hw : BaWF K s) : Carries K s s' :=
  ⟨hw, h.term, h.bnd, fun j b hb => by
    obtain ⟨t, h1, h2⟩ := h.obj j b hb
    exact ⟨t, h1, h2.imp id (fun h' => h.asgX _ h'.1)⟩⟩

theorem TabEq.carries (h : TabEq s s') (hw : BaWF K s) : Carries K s s' :=
  ⟨hw, fun n t ht => by rw [h.terms]; exact ht, fun n _ _ => by rw [h.binds], fun j b hb => ⟨b.tree, by rw [h.objs]; exact hb, .inl rfl⟩⟩

theorem BaFits.back (hK : K.OK) (h : Carries K s s') (g : BaFits K s' cut τ) : BaFits K s cut τ := by
  refine ⟨⟨g.arrays.1, fun c t ht => g.arrays.2 c t (h.term c t ht)⟩, ?_⟩
  intro n hn b hb v hv
  have hX : ¬ K.X n := by
    intro hX
    obtain ⟨t, ht, -⟩ := hK.decl n hX
    rw [Dict.has_eq, ht] at hn
    cases hn
  cases hi : s.binds.get? n with
  | none => simp [BV.getBindlist, hi, BV.deref] at hb
  | some ids =>
    have hterm := h.wf.keys n ids hi
    have hb' : b ∈ s'.getBindlist n := by
      simp only [BV.getBindlist, hi, Option.getD_some, BV.deref, List.mem_filterMap] at hb
      obtain ⟨i, hi', hbi⟩ := hb
      obtain ⟨t, k1, k2⟩ := h.obj i b hbi
      obtain ⟨b', k3, k4⟩ := h.wf.objs n ids hi i hi'
      rw [hbi] at k3; cases k3
      have : t = b.tree := k2.resolve_right (by rw [k4]; exact hX)
      subst this
      simp only [BV.getBindlist, h.bnd n hX hterm, hi, Option.getD_some, BV.deref, List.mem_filterMap]
      exact ⟨i, hi', k1⟩
    rw [g.inter n hn b hb' v hv]
    rw [Dict.has_eq] at hterm
    obtain ⟨t, ht⟩ := Option.isSome_iff_exists.mp hterm
    simp only [fitTo, ht, h.term n t ht]

theorem BaFits.sound (hw : BaWF K s) (h : BaFits K s cut τ) : K.A.Sound τ K.res :=
  flatA_sound (s := K.s0) ⟨h.arrays.1, fun c t ht => h.arrays.2 c t (hw.ext c t ht)⟩ K.mod

theorem SemVal.tree (h : SemVal K τ s η) (ht : ∀ x, K.X x → sched τ (s'.treeOf x) = sched τ (s.treeOf x)) : SemVal K τ s' η :=
  ⟨fun x v hX hv => by have := h.val x v hX hv; simpa only [valOf, ht x hX] using this, h.other, h.arr, h.dw⟩

/-! ### What is found in the frames -/

theorem trOf_some {j : Nat} {b : Bind} (h : s.objs[j]? = some b) : s.trOf j = b.tree := by simp only [BV.trOf, h]

theorem VisOK.open (h : VisOK K τ s c) (o : Opened K s s1 c d p q) : VisOK K τ s1 d := by
  intro x hX
  obtain ⟨h1, h2⟩ := h x hX
  rw [o.tab.treeOf]
  have hent : ∀ c', c' <+: c → s1.ent c' x = s.ent c' x := fun c' hc => by simp only [BV.ent, o.prefixFrm hc]
  have hcd : c <+: d := by obtain ⟨l, rfl⟩ := o.below; exact List.prefix_append _ _
  refine ⟨?_, fun hall => h2 (fun d' a1 a2 => by rw [← hent d' a2]; exact hall d' a1 (a2.trans hcd))⟩
  intro c' j a1 a2 a3 a4
  obtain ⟨l, rfl⟩ := o.below
  rcases List.prefix_concat_iff.mp a2 with rfl | a2
  · rw [o.ent] at a3; cases a3
  · rw [o.tab.trOf]
    refine h1 c' j a1 a2 (by rw [← hent c' a2]; exact a3) (fun d' b1 b2 b3 => ?_)
    rw [← hent d' b2]
    exact a4 d' b1 (b2.trans hcd) b3

theorem VisOK.step (h : VisOK K τ s c) (hc : K.root <+: c) (hw : BaWF K s) (hf : BaFr K s c) (g : BaStep K s s' c asg) : VisOK K τ s' c := by
  intro x hX
  by_cases ha : asg x
  · obtain ⟨j, b, g1, g2, g3, g4, g5, -⟩ := g.ent1 x ha
    refine ⟨?_, ?_⟩
    · intro c' j' a1 a2 a3 a4
      by_cases hc : c' = c
      · subst hc
        rw [g1] at a3; cases a3
        rw [trOf_some g2, g5]
      · have := a4 c a2 (List.prefix_refl _) (Ne.symm hc)
        rw [g1] at this; cases this
    · intro hall
      have := hall c hc (List.prefix_refl _)
      rw [g1] at this; cases this
  · obtain ⟨h1, h2⟩ := h x hX
    have hent : ∀ c', c' <+: c → s'.ent c' x = s.ent c' x := by
      intro c' hc
      by_cases e : c' = c
      · subst e; exact g.ent0 x ha
      · have hn : ¬ c <+: c' := fun k => e (hc.eq_of_length (Nat.le_antisymm hc.length_le k.length_le))
        simp only [BV.ent, g.frm c' hn]
    rw [g.keeps.tree0 hw hX ha]
    refine ⟨?_, fun hall => h2 (fun d' a1 a2 => by rw [← hent d' a2]; exact hall d' a1 a2)⟩
    intro c' j a1 a2 a3 a4
    rw [hent c' a2] at a3
    obtain ⟨b, k1, k2, -⟩ := hf c' a1 a2 x j a3
    obtain ⟨t, k3, k4⟩ := g.keeps.obj j b k1
    have : t = b.tree := by
      rcases k4 with k4 | ⟨k4, -⟩
      · exact k4
      · rw [k2] at k4; exact absurd k4 ha
    rw [trOf_some k3, this, ← trOf_some k1]
    exact h1 c' j a1 a2 a3 (fun d' b1 b2 b3 => by rw [← hent d' b2]; exact a4 d' b1 b2 b3)

theorem VisOK.sides {fs} (h : VisOK K τ s c) (hf : BaFr K s c) (g : SidesPost K s s' c fs asg)
    (hs : ∀ x, K.X x → sched τ (s'.treeOf x) = sched τ (s.treeOf x)) : VisOK K τ s' c := by
  intro x hX
  obtain ⟨h1, h2⟩ := h x hX
  rw [hs x hX]
  refine ⟨?_, fun hall => h2 (fun d' a1 a2 => by rw [← g.ent a2]; exact hall d' a1 a2)⟩
  intro c' j a1 a2 a3 a4
  rw [g.ent a2] at a3
  have base := h1 c' j a1 a2 a3 (fun d' b1 b2 b3 => by rw [← g.ent b2]; exact a4 d' b1 b2 b3)
  obtain ⟨b, k1, k2, -⟩ := hf c' a1 a2 x j a3
  obtain ⟨t, k3, k4⟩ := g.keeps.obj j b k1
  rw [trOf_some k3]
  rcases k4 with k4 | ⟨-, k4⟩
  · simp only [k4, ← trOf_some k1, base]
  · rw [k2] at k4
    have hi : s.tid x = some j := k4.resolve_right (fun h => nomatch h)
    have := g.keeps.wf.treeOf_some hX (g.keeps.tid x j hX hi) k3
    rw [← this, hs x hX]

theorem VisOK.tab (h : VisOK K τ s c) (ht : TabEq s s') (hfr : s'.frames = s.frames) : VisOK K τ s' c := by
  intro x hX
  have := h x hX
  simpa only [BV.ent, hfr, ht.treeOf, ht.trOf] using this

/-! ### Right-hand sides -/

theorem allNames_true (e : Ex) : e.allNames (fun _ => true) = true := by
  have hl : ∀ es : List Ex, (∀ e ∈ es, e.allNames (fun _ => true) = true) → Ex.allNamesL (fun _ => true) es = true :=
    fun es h => allNamesL_iff.mpr h
  induction e using Ex.ind with
  | ident s n => rfl
  | intc => rfl
  | fltc => rfl
  | strc => rfl
  | cond c t f h1 h2 h3 => simp [Ex.allNames, h1, h2, h3]
  | uplus e h => simpa [Ex.allNames] using h
  | un o e h => simpa [Ex.allNames] using h
  | bin o a b h1 h2 => simp [Ex.allNames, h1, h2]
  | psel v m l h1 h2 h3 => simp [Ex.allNames, h1, h2, h3]
  | ptr v p h1 h2 => simp [Ex.allNames, h1, h2]
  | concat es h => simpa [Ex.allNames] using hl es h
  | rep t v h1 h2 => simp [Ex.allNames, h1, h2]
  | call f es h => simpa [Ex.allNames] using hl es h
  | sys f es h => simpa [Ex.allNames] using hl es h

theorem fit_whole {n : ScopeChain} {b : Bind} (hb : b.whole) {p' : CondPath} {u : DF} (h : s.removeOverwrapped n [b] p' = .ok u) :
    replaceUndefined n (diffBranchTree b.tree p').1 = .ok u := by
  simp only [BV.removeOverwrapped] at h
  split at h
  · cases h
  · simp only [bind_ok, BV.getFitTree, BV.getFitTree.go, hb.1, hb.2.1, and_self, if_true] at h
    obtain ⟨m, ⟨_, _, _, _, r, hr, hm⟩, h⟩ := h
    cases hr
    cases hm
    exact h

/-- A right-hand side has the value it has when it is executed. -/
theorem rhs_ba (hK : K.OK) (hw : BaWF K s) (hf : BaFr K s c) (hc : BaChain K s.frames c p) (ha : s.ArraysAgree τ) {r : Ex} {raw : DF} (hr : r.flat = true)
    (h : s.getTree r c = .ok raw) (hd : ∀ p', s.path c = .ok p' → pathDec τ p' = some true) (hv : SemVal K τ s η) (hvis : VisOK K τ s c) {v}
    (he : exVal η K.res r = some v) : sem τ raw = some v := by
  have hXa : ∀ x, K.X x → τ.arr x = none ∧ s.hasDims x = .ok false := by
    intro x hX
    obtain ⟨t, ht, htd⟩ := hK.decl x hX
    have ht := hw.ext x t ht
    have := ha.2 x t ht
    rw [htd] at this
    refine ⟨?_, by simp [BV.hasDims, ht, htd]⟩
    cases hx : τ.arr x with
    | none => rfl
    | some f => rw [hx] at this; simp at this
  have hη : ArraysOK η := by
    intro n f hn
    rw [hv.arr] at hn
    have := ha.1 n f hn
    by_cases hX : K.X n
    · rw [(hXa n hX).1] at hn; cases hn
    · rw [hv.other n hX]; exact this
  have haη : s.ArraysAgree η := ⟨hη, fun c t ht => by rw [hv.arr]; exact ha.2 c t ht⟩
  have he' : exVal η (resOf s.terms K.mod) r = some v :=
    exVal_le (Q := fun _ => true) (fun n c _ hn => ⟨hw.res_mono hn, rfl⟩) rfl rfl r (allNames_true r) v he
  simp only [BV.getTree, hw.nore, Bool.false_eq_true, if_false, bind_ok] at h
  obtain ⟨t, ht, u, hu, h⟩ := h
  have ht' : (s.flatE K.mod).makeDF r = .ok t := by
    refine makeDF_mono (E := s.exprEnv (s.timesOf s.path c) c) (E' := s.flatE K.mod) ?_ (fun _ _ h => h) ?_ r hr t ht
    · intro n r hr
      simp only [BV.exprEnv, search_ba hc hw.flat] at hr
      exact hr
    · intro l r hr
      simp only [BV.exprEnv, BV.timesOf, bind_ok, hw.nore, Bool.false_eq_true, if_false] at hr
      obtain ⟨u, hu, u', hu', w, hw', hr⟩ := hr
      simp only [ResEnv.resolve, ok_inj] at hu
      subst hu
      have : u' = .intc l := reorder_nf_id (by simp [nf]) _ _ hu'
      subst this
      simp [BV.flatE, hw', ok_bind, hr]
  have h1 : sem η t = some v := C57_expression_value η hη _ _ (flatE_agrees haη K.mod) r t v ht' he'
  refine C14_reorder_value τ ha.1 _ _ _ h v (C57_substitution_value η τ hη ha.1 _ ⟨?_, ?_, ?_, ?_, ?_⟩ t u v hu h1)
  · intro n u v hu hn
    simp only [BV.resEnv, bind_ok] at hu
    obtain ⟨g, hg, hu⟩ := hu
    have : g = false := by
      simp only [BV.isGenvar] at hg
      split at hg
      · cases hg
      · rename_i t ht; cases hg; exact hw.flat.2 _ _ ht
    subst this
    simp only [Bool.false_eq_true, if_false, bind_ok] at hu
    obtain ⟨bs, hbs, hu⟩ := hu
    rcases getBlocking_ba hc n _ _ hbs with ⟨c', i, a1, a2, a3, a4, a5, a6⟩ | ⟨a1, a2⟩
    · obtain ⟨b, b1, b2, b3⟩ := hf c' a1 a2 n i a3
      have : bs = [b] := by rw [a5]; simp [BV.deref, b1]
      subst this
      simp only [List.cons_ne_nil, if_false, bind_ok] at hu
      obtain ⟨p', hp', hu⟩ := hu
      refine replace_valOf (hXa n a4).1 (fit_whole b3 hu) ?_
      have k1 := (hvis n a4).1 c' i a1 a2 a3 a6
      rw [trOf_some b1] at k1
      have := hv.val n v a4 hn
      simpa only [valOf, sched_diff _ _ (hd p' hp'), k1] using this
    · subst a1
      simp only [if_true, ok_inj] at hu
      subst hu
      simp only [sem]
      by_cases hX : K.X n
      · have k1 := (hvis n hX).2 a2
        have := hv.val n v hX hn
        simpa [valOf, k1] using this
      · rw [← hv.other n hX]; exact hn
  · intro n b hb; exact hasDims_agree haη hb
  · intro n; rw [hv.arr]
  · intro n bs hd' hb
    by_cases hX : K.X n
    · have : s.hasDims n = .ok true := hd'
      rw [(hXa n hX).2] at this; cases this
    · exact getBlocking_other hc hX hb
  · rw [hv.dw]

end

end Pyv
