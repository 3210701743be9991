import Verif.Props.BaAssign
/-
  C74: the sides of conditions, and copying what their frames know into the frame around.
-/
namespace Pyv

/-- The assignments that frames know, in order. -/
def opsOf (s : BV) (fs : List ScopeChain) : List (ScopeChain × Nat) :=
  fs.flatMap (fun d => match s.frames.get? d with
    | some f => f.blocking.flatMap (fun e => e.2.map (fun i => (e.1, i)))
    | none => [])

/-- Copying one assignment into a frame. -/
def copyOp (c : ScopeChain) (st : BV) (e : ScopeChain × Nat) : Py BV :=
  match st.objs[e.2]? with
  | some b => st.setBlocking c e.1 e.2 b
  | none => .ok st

section
variable {K : BaEnv} {s s' s'' : BV} {c : ScopeChain} {p : ExPath} {asg asg' : ScopeChain → Prop}

theorem setBlocking_frames {x : ScopeChain} {i : Nat} {b : Bind} (h : s.setBlocking c x i b = .ok s') {d : ScopeChain} (hd : d ≠ c) :
    s'.frames.get? d = s.frames.get? d := by
  simp only [BV.setBlocking, bind_ok] at h
  obtain ⟨f, hf, h⟩ := h
  split at h
  · cases h; rw [Dict.get?_set, if_neg (Ne.symm hd)]
  · split at h
    · cases h; rfl
    · cases h; rw [Dict.get?_set, if_neg (Ne.symm hd)]

theorem copyOps_frames {ops : List (ScopeChain × Nat)} : ∀ s s', ops.foldlM (copyOp c) s = .ok s' → ∀ d, d ≠ c → s'.frames.get? d = s.frames.get? d := by
  induction ops with
  | nil => intro s s' h d _; simp only [List.foldlM_nil, py_pure, ok_inj] at h; rw [h]
  | cons e ops ih =>
    intro s s' h d hd
    simp only [List.foldlM_cons, bind_ok] at h
    obtain ⟨s1, h1, h⟩ := h
    rw [ih s1 s' h d hd]
    simp only [copyOp] at h1
    split at h1
    · exact setBlocking_frames h1 hd
    · cases h1; rfl

theorem opsOf_congr {fs : List ScopeChain} (h : ∀ d ∈ fs, s'.frames.get? d = s.frames.get? d) : opsOf s' fs = opsOf s fs := by
  induction fs with
  | nil => rfl
  | cons d fs ih =>
    have e1 := h d (by simp)
    have e2 := ih (fun d hd => h d (by simp [hd]))
    simp only [opsOf, List.flatMap_cons] at e2 ⊢
    rw [e1, e2]

/-- Copying the frames is copying what they know. -/
theorem copyAll_ops {fs : List ScopeChain} : ∀ s s', (∀ d ∈ fs, d ≠ c) → fs.foldlM (fun (st : BV) f => st.copyBlocking f c) s = .ok s' →
    (opsOf s fs).foldlM (copyOp c) s = .ok s' := by
  induction fs with
  | nil => intro s s' _ h; exact h
  | cons d fs ih =>
    intro s s' hne h
    simp only [List.foldlM_cons, bind_ok] at h
    obtain ⟨s1, h1, h⟩ := h
    simp only [BV.copyBlocking, bind_ok] at h1
    obtain ⟨f, hf, h1⟩ := h1
    have hf := frame_get hf
    replace h1 : (f.blocking.flatMap (fun e => e.2.map (fun i => (e.1, i)))).foldlM (copyOp c) s = .ok s1 := h1
    have hc := opsOf_congr (s' := s1) (s := s) (fs := fs) (fun d hd => copyOps_frames s s1 h1 d (hne d (by simp [hd])))
    have := ih s1 s' (fun d hd => hne d (by simp [hd])) h
    rw [hc] at this
    have he : opsOf s (d :: fs) = f.blocking.flatMap (fun e => e.2.map (fun i => (e.1, i))) ++ opsOf s fs := by
      simp only [opsOf, List.flatMap_cons, hf]
    rw [he, List.foldlM_append, h1, ok_bind]
    exact this

/-- What copying does. -/
structure BaCopy (K : BaEnv) (s s' : BV) (c : ScopeChain) (ops : List (ScopeChain × Nat)) : Prop where
  wf : BaWF K s'
  binds : s'.binds = s.binds
  cur : s'.current = s.current
  terms : s'.terms = s.terms
  len : s'.objs.length = s.objs.length
  frm : ∀ c', c' ≠ c → s'.frames.get? c' = s.frames.get? c'
  own : ∃ f bl, s.frames.get? c = some f ∧ s'.frames.get? c = some { f with blocking := bl } ∧ BaFrame K { f with blocking := bl }
  obj : ∀ j b, s.objs[j]? = some b → ∃ t, s'.objs[j]? = some { b with tree := t } ∧ (t = b.tree ∨ s'.ent c b.dest = some j ∧ ∃ i, (b.dest, i) ∈ ops)
  mono : ∀ x e, s.ent c x = some e → s'.ent c x = some e
  new : ∀ x e, s.ent c x = none → s'.ent c x = some e → (x, e) ∈ ops
  fr : ∀ x e, s'.ent c x = some e → ∃ b, s'.objs[e]? = some b ∧ b.dest = x ∧ b.whole

theorem BaCopy.trans {ops ops'} (h : BaCopy K s s' c ops) (g : BaCopy K s' s'' c ops') : BaCopy K s s'' c (ops ++ ops') where
  wf := g.wf
  binds := g.binds.trans h.binds
  cur := g.cur.trans h.cur
  terms := g.terms.trans h.terms
  len := g.len.trans h.len
  frm c' hc := (g.frm c' hc).trans (h.frm c' hc)
  own := by
    obtain ⟨f, nb, h1, h2, h3⟩ := h.own
    obtain ⟨f', nb', g1, g2, g3⟩ := g.own
    rw [h2] at g1
    cases g1
    exact ⟨f, nb', h1, g2, g3⟩
  obj j b hb := by
    obtain ⟨t, h1, h2⟩ := h.obj j b hb
    obtain ⟨t', g1, g2⟩ := g.obj j _ h1
    refine ⟨t', g1, ?_⟩
    rcases g2 with rfl | ⟨g2, i, g3⟩
    · rcases h2 with rfl | ⟨h2, i, h3⟩
      · exact .inl rfl
      · exact .inr ⟨g.mono _ _ h2, i, by simp [h3]⟩
    · exact .inr ⟨g2, i, by simp [g3]⟩
  mono x e he := g.mono x e (h.mono x e he)
  new x e h0 he := by
    cases h1 : s'.ent c x with
    | none => simp [g.new x e h1 he]
    | some e' =>
      have := g.mono x e' h1
      rw [he] at this; cases this
      simp [h.new x e h0 h1]
  fr := g.fr

theorem copyOp_ba (hw : BaWF K s) {f : Frame} (hf : s.frames.get? c = some f) (hfo : BaFrame K f)
    (hfr : ∀ x e, s.ent c x = some e → ∃ b, s.objs[e]? = some b ∧ b.dest = x ∧ b.whole) {x : ScopeChain} {i : Nat} (hX : K.X x) {b : Bind}
    (hb : s.objs[i]? = some b) (hd : b.dest = x) (hwh : b.whole) (h : copyOp c s (x, i) = .ok s') :
    BaCopy K s s' c [(x, i)] ∧ ∃ e b', s'.ent c x = some e ∧ s'.objs[e]? = some b' ∧ b'.tree = b.tree := by
  simp only [copyOp, hb] at h
  obtain ⟨w, ⟨g1, g2, g3, g4⟩, gf, ⟨bl, gb1, gb2⟩, ⟨e, he, he'⟩, gy, gobj⟩ := setBlocking_ba hw hf hfo hX hwh
    (fun e he => by obtain ⟨b', h1, -, h3⟩ := hfr x e he; exact ⟨b', h1, h3⟩) h
  refine ⟨⟨w, g1, g2, g3, g4, gf, ⟨f, bl, hf, gb1, gb2⟩, ?_, ?_, ?_, ?_⟩, ?_⟩
  · intro j b' hb'
    refine ⟨_, gobj j b' hb', ?_⟩
    by_cases hj : s.ent c x = some j
    · obtain ⟨b2, k1, k2, -⟩ := hfr x j hj
      rw [hb'] at k1; cases k1
      right
      rw [k2]
      refine ⟨?_, i, by simp⟩
      rcases he' with he' | ⟨he', -⟩
      · rw [hj] at he'; cases he'; exact he
      · rw [hj] at he'; cases he'
    · rw [if_neg hj]; exact .inl rfl
  · intro y e1 h1
    by_cases hy : y = x
    · subst hy
      rcases he' with he' | ⟨he', -⟩
      · rw [h1] at he'; cases he'; exact he
      · rw [h1] at he'; cases he'
    · rw [gy y hy]; exact h1
  · intro y e1 h0 h1
    by_cases hy : y = x
    · subst hy
      rw [he] at h1; cases h1
      rcases he' with he' | ⟨-, rfl⟩
      · rw [h0] at he'; cases he'
      · simp
    · rw [gy y hy, h0] at h1; cases h1
  · intro y e1 h1
    by_cases hy : y = x
    · subst hy
      rw [he] at h1; cases h1
      rcases he' with he' | ⟨-, rfl⟩
      · obtain ⟨b2, k1, k2, k3⟩ := hfr y e he'
        exact ⟨_, gobj e b2 k1, k2, k3⟩
      · exact ⟨_, gobj e b hb, hd, hwh⟩
    · rw [gy y hy] at h1
      obtain ⟨b2, k1, k2, k3⟩ := hfr y e1 h1
      exact ⟨_, gobj _ b2 k1, k2, k3⟩
  · rcases he' with he' | ⟨he', rfl⟩
    · obtain ⟨b2, k1, k2, k3⟩ := hfr x e he'
      exact ⟨e, _, he, gobj e b2 k1, by simp [he']⟩
    · exact ⟨_, _, he, gobj e b hb, by simp [he']⟩

theorem BaCopy.refl (hw : BaWF K s) {f : Frame} (hf : s.frames.get? c = some f) (hfo : BaFrame K f)
    (hfr : ∀ x e, s.ent c x = some e → ∃ b, s.objs[e]? = some b ∧ b.dest = x ∧ b.whole) : BaCopy K s s c [] :=
  ⟨hw, rfl, rfl, rfl, rfl, fun _ _ => rfl, ⟨f, f.blocking, hf, hf, hfo⟩, fun j b h => ⟨b.tree, h, .inl rfl⟩, fun _ _ h => h,
    fun x e h h' => (by rw [h] at h'; cases h'), hfr⟩

theorem copyOps_ba {ops : List (ScopeChain × Nat)} : ∀ s s', BaWF K s → (∃ f, s.frames.get? c = some f ∧ BaFrame K f) →
    (∀ x e, s.ent c x = some e → ∃ b, s.objs[e]? = some b ∧ b.dest = x ∧ b.whole) →
    (∀ e ∈ ops, K.X e.1 ∧ ∃ b, s.objs[e.2]? = some b ∧ b.dest = e.1 ∧ b.whole) → ops.foldlM (copyOp c) s = .ok s' → BaCopy K s s' c ops := by
  induction ops with
  | nil =>
    intro s s' hw ⟨f, hf, hfo⟩ hfr _ h
    simp only [List.foldlM_nil, py_pure, ok_inj] at h
    subst h
    exact .refl hw hf hfo hfr
  | cons e ops ih =>
    intro s s' hw ⟨f, hf, hfo⟩ hfr ho h
    simp only [List.foldlM_cons, bind_ok] at h
    obtain ⟨s1, h1, h⟩ := h
    obtain ⟨x, i⟩ := e
    obtain ⟨hX, b, hb, hd, hwh⟩ := ho (x, i) (by simp)
    obtain ⟨k, -⟩ := copyOp_ba hw hf hfo hfr hX hb hd hwh h1
    obtain ⟨f', bl, -, hf', hfo'⟩ := k.own
    refine k.trans (ih s1 s' k.wf ⟨_, hf', hfo'⟩ k.fr ?_ h)
    intro e he
    obtain ⟨hX', b', hb', hd', hwh'⟩ := ho e (by simp [he])
    obtain ⟨t, g1, -⟩ := k.obj _ _ hb'
    exact ⟨hX', _, g1, hd', hwh'⟩

/-- The tree of the last assignment copied for a signal arrives in the frame. -/
theorem copyOps_last {x : ScopeChain} {d : Nat} {L0 L1 : List (ScopeChain × Nat)} (hw : BaWF K s) (hf : ∃ f, s.frames.get? c = some f ∧ BaFrame K f)
    (hfr : ∀ x e, s.ent c x = some e → ∃ b, s.objs[e]? = some b ∧ b.dest = x ∧ b.whole)
    (ho : ∀ e ∈ L0 ++ (x, d) :: L1, K.X e.1 ∧ ∃ b, s.objs[e.2]? = some b ∧ b.dest = e.1 ∧ b.whole)
    (h0 : (x, d) ∉ L0) (h1 : ∀ e ∈ L1, e.1 ≠ x) (hne : s.ent c x ≠ some d) (h : (L0 ++ (x, d) :: L1).foldlM (copyOp c) s = .ok s') :
    ∃ e b, s'.ent c x = some e ∧ s'.objs[e]? = some b ∧ b.tree = s.trOf d := by
  simp only [List.foldlM_append, List.foldlM_cons, bind_ok] at h
  obtain ⟨s1, k0, s2, k1, k2⟩ := h
  have g0 := copyOps_ba s s1 hw hf hfr (fun e he => ho e (by simp [he])) k0
  obtain ⟨hX, b, hb, hd, hwh⟩ := ho (x, d) (by simp)
  obtain ⟨t, hb1, ht⟩ := g0.obj d b hb
  have ht : t = b.tree := by
    rcases ht with ht | ⟨ht, -⟩
    · exact ht
    · exfalso
      rw [hd] at ht
      cases he : s.ent c x with
      | none => exact h0 (g0.new x d he ht)
      | some e =>
        have := g0.mono x e he
        rw [ht] at this; cases this
        exact hne he
  subst ht
  obtain ⟨f1, bl1, -, hf1, hfo1⟩ := g0.own
  obtain ⟨g1, e, b', he, hb', ht⟩ := copyOp_ba g0.wf hf1 hfo1 g0.fr hX hb1 hd hwh k1
  obtain ⟨f2, bl2, -, hf2, hfo2⟩ := g1.own
  have g2 := copyOps_ba s2 s' g1.wf ⟨_, hf2, hfo2⟩ g1.fr (by
    intro e he
    obtain ⟨hX', b', hb', hd', hwh'⟩ := ho e (by simp [he])
    obtain ⟨t, q1, -⟩ := g0.obj _ _ hb'
    obtain ⟨t', q2, -⟩ := g1.obj _ _ q1
    exact ⟨hX', _, q2, hd', hwh'⟩) k2
  obtain ⟨t', q1, q2⟩ := g2.obj e b' hb'
  refine ⟨e, _, g2.mono x e he, q1, ?_⟩
  obtain ⟨b2, r1, r2, -⟩ := g1.fr x e he
  rw [hb'] at r1; cases r1
  have : t' = b'.tree := by
    rcases q2 with q2 | ⟨-, i, q2⟩
    · exact q2
    · rw [r2] at q2; exact absurd rfl (h1 _ q2)
  simp only [this, ht, BV.trOf, hb]

/-! ### Sides -/

/-- `s'` comes from `s` by work in the frames `fs` below `c`, which assigns `asg`; nothing is copied into `c` yet. -/
structure SidesPost (K : BaEnv) (s s' : BV) (c : ScopeChain) (fs : List ScopeChain) (asg : ScopeChain → Prop) : Prop where
  keeps : BaKeeps K s s' asg (fun _ => none)
  under : ∀ d ∈ fs, c <+: d ∧ d ≠ c
  frm : ∀ c', (∀ d ∈ fs, ¬ d <+: c') → s'.frames.get? c' = s.frames.get? c'
  ops : ∀ e ∈ opsOf s' fs, asg e.1 ∧ s.objs.length ≤ e.2 ∧ ∃ b, s'.objs[e.2]? = some b ∧ b.dest = e.1 ∧ b.whole
  last : ∀ x, asg x → ∃ L0 d L1, opsOf s' fs = L0 ++ (x, d) :: L1 ∧ (∀ e ∈ L1, e.1 ≠ x) ∧ (x, d) ∉ L0 ∧ s'.trOf d = s'.treeOf x

theorem SidesPost.frm' {fs} (h : SidesPost K s s' c fs asg) {c' : ScopeChain} (hc : c' <+: c) : s'.frames.get? c' = s.frames.get? c' := by
  refine h.frm c' (fun d hd hp => ?_)
  obtain ⟨h1, h2⟩ := h.under d hd
  have := hp.trans hc
  exact h2 ((this.eq_of_length (Nat.le_antisymm this.length_le h1.length_le)))

theorem SidesPost.chain {fs} (h : SidesPost K s s' c fs asg) (hc : BaChain K s.frames c p) : BaChain K s'.frames c p :=
  hc.same (fun _ h' => h.frm' h')

theorem SidesPost.ent {fs} (h : SidesPost K s s' c fs asg) {c' : ScopeChain} (hc : c' <+: c) (x) : s'.ent c' x = s.ent c' x := by
  simp only [BV.ent, h.frm' hc]

theorem SidesPost.fr {fs} (h : SidesPost K s s' c fs asg) (hf : BaFr K s c) : BaFr K s' c := by
  intro c' h1 h2 x i hi
  rw [h.ent h2] at hi
  obtain ⟨b, g1, g2, g3⟩ := hf c' h1 h2 x i hi
  obtain ⟨t, k1, -⟩ := h.keeps.obj i b g1
  exact ⟨_, k1, g2, g3⟩

theorem BaKeeps.current {E} (h : BaKeeps K s s' asg E) (d : ScopeChain) : BaKeeps K s { s' with current := d } asg E :=
  ⟨⟨h.wf.ext, h.wf.flat, h.wf.nore, h.wf.fuel, h.wf.keys, h.wf.objs, h.wf.tabs⟩, h.term, h.bnd, h.len, h.asgX, h.tid, h.tid0, h.tid1, h.tidn, h.obj⟩

theorem SidesPost.current {fs} (h : SidesPost K s s' c fs asg) (d : ScopeChain) : SidesPost K s { s' with current := d } c fs asg :=
  ⟨h.keeps.current d, h.under, h.frm, h.ops, h.last⟩

theorem SidesPost.congr {fs} (h : SidesPost K s s' c fs asg) (he : ∀ x, asg x ↔ asg' x) : SidesPost K s s' c fs asg' := by
  have : asg = asg' := funext fun x => propext (he x)
  rw [← this]; exact h

theorem SidesPost.none (hw : BaWF K s) : SidesPost K s s c [] (fun _ => False) :=
  ⟨.refl hw, by simp, fun _ _ => rfl, by simp [opsOf], fun _ h => h.elim⟩

/-- Two groups of sides. -/
theorem SidesPost.trans {fs fs'} (h : SidesPost K s s' c fs asg) (g : SidesPost K s' s'' c fs' asg')
    (hd : ∀ d ∈ fs, ∀ d' ∈ fs', ¬ d' <+: d) : SidesPost K s s'' c (fs ++ fs') (fun x => asg x ∨ asg' x) := by
  have hop : opsOf s'' (fs ++ fs') = opsOf s' fs ++ opsOf s'' fs' := by
    have := opsOf_congr (s' := s'') (s := s') (fs := fs) (fun d hdf => g.frm d (fun d' hd' => hd d hdf d' hd'))
    simp only [opsOf, List.flatMap_append] at this ⊢
    rw [this]
  refine ⟨h.keeps.trans g.keeps (fun _ _ _ h => nomatch h), ?_, ?_, ?_, ?_⟩
  · intro d hd
    rcases List.mem_append.mp hd with hd | hd
    · exact h.under d hd
    · exact g.under d hd
  · intro c' hc
    rw [g.frm c' (fun d hd => hc d (by simp [hd])), h.frm c' (fun d hd => hc d (by simp [hd]))]
  · intro e he
    rw [hop] at he
    rcases List.mem_append.mp he with he | he
    · obtain ⟨h1, h2, b, h3, h4, h5⟩ := h.ops e he
      obtain ⟨t, k1, -⟩ := g.keeps.obj _ _ h3
      exact ⟨.inl h1, h2, _, k1, h4, h5⟩
    · obtain ⟨h1, h2, h3⟩ := g.ops e he
      exact ⟨.inr h1, Nat.le_trans h.keeps.len h2, h3⟩
  · intro x hx
    by_cases h2 : asg' x
    · obtain ⟨L0, d, L1, k1, k2, k3, k4⟩ := g.last x h2
      refine ⟨opsOf s' fs ++ L0, d, L1, by rw [hop, k1]; simp, k2, ?_, k4⟩
      intro hm
      rcases List.mem_append.mp hm with hm | hm
      · obtain ⟨-, -, b, h3, -⟩ := h.ops _ hm
        have := lt_of_get h3
        obtain ⟨-, h4, -⟩ := g.ops (x, d) (by rw [k1]; simp)
        simp only at this h4
        omega
      · exact k3 hm
    · have h1 : asg x := hx.resolve_right h2
      obtain ⟨L0, d, L1, k1, k2, k3, k4⟩ := h.last x h1
      refine ⟨L0, d, L1 ++ opsOf s'' fs', by rw [hop, k1]; simp, ?_, k3, ?_⟩
      · intro e he
        rcases List.mem_append.mp he with he | he
        · exact k2 e he
        · rintro rfl
          exact h2 (g.ops e he).1
      · obtain ⟨-, -, b, h3, h4, -⟩ := h.ops (x, d) (by rw [k1]; simp)
        obtain ⟨t, q1, q2⟩ := g.keeps.obj _ _ h3
        have ht : t = b.tree := by
          rcases q2 with q2 | ⟨q2, -⟩
          · exact q2
          · simp only at h4; rw [h4] at q2; exact absurd q2 h2
        rw [g.keeps.tree0 h.keeps.wf (h.keeps.asgX x h1) h2, ← k4]
        simp only at q1 h3
        simp only [BV.trOf, q1, h3, ht]

/-- Copying into the frame around completes a statement. -/
theorem step_of_sides {fs} (hw : BaWF K s) (hf : BaFr K s c) (hc : BaChain K s.frames c p) (h : SidesPost K s s' c fs asg) (hcur : s'.current = s.current)
    (h1 : fs.foldlM (fun (st : BV) f => st.copyBlocking f c) s' = .ok s'') :
    BaStep K s s'' c asg ∧ (s''.terms = s'.terms ∧ s''.binds = s'.binds ∧
      ∀ (j : Nat) (b : Bind), s'.objs[j]? = some b → ∃ t, s''.objs[j]? = some { b with tree := t } ∧ (t = b.tree ∨ K.X b.dest)) ∧
    ∀ x, K.X x → s''.treeOf x = s'.treeOf x := by
  have hops := copyAll_ops s' s'' (fun d hd => (h.under d hd).2) h1
  have hfr : ∀ x e, s'.ent c x = some e → ∃ b, s'.objs[e]? = some b ∧ b.dest = x ∧ b.whole := h.fr hf c hc.under (List.prefix_refl _)
  have hent : ∀ x, s'.ent c x = s.ent c x := fun x => h.ent (List.prefix_refl _) x
  have hXo : ∀ e ∈ opsOf s' fs, K.X e.1 ∧ ∃ b, s'.objs[e.2]? = some b ∧ b.dest = e.1 ∧ b.whole := by
    intro e he
    obtain ⟨a1, -, a2⟩ := h.ops e he
    exact ⟨h.keeps.asgX _ a1, a2⟩
  have g := copyOps_ba s' s'' h.keeps.wf (h.chain hc).frame hfr hXo hops
  have hlast : ∀ x, asg x → ∃ e b, s''.ent c x = some e ∧ s''.objs[e]? = some b ∧ b.tree = s'.treeOf x := by
    intro x hx
    obtain ⟨L0, d, L1, k1, k2, k3, k4⟩ := h.last x hx
    rw [← k4]
    have hd := h.ops (x, d) (by rw [k1]; simp)
    rw [k1] at hXo hops
    refine copyOps_last h.keeps.wf (h.chain hc).frame hfr hXo k3 k2 ?_ hops
    intro he
    rw [hent] at he
    obtain ⟨b, q1, -⟩ := hf c hc.under (List.prefix_refl _) x d he
    have := lt_of_get q1
    have := hd.2.1
    simp only at this
    omega
  have htid : ∀ x, s''.tid x = s'.tid x := fun x => by simp only [BV.tid, g.binds]
  have htree : ∀ x, K.X x → s''.treeOf x = s'.treeOf x := by
    intro x hX
    cases hi : s'.tid x with
    | none => rw [h.keeps.wf.treeOf_none hX hi, g.wf.treeOf_none hX ((htid x).trans hi)]
    | some i =>
      obtain ⟨-, b, hb, hd, -⟩ := h.keeps.wf.tid_obj hX hi
      obtain ⟨t, q1, q2⟩ := g.obj i b hb
      rw [g.wf.treeOf_some hX ((htid x).trans hi) q1]
      rcases q2 with rfl | ⟨q2, j, q3⟩
      · exact (h.keeps.wf.treeOf_some hX hi hb).symm
      · rw [hd] at q2 q3
        obtain ⟨e, b', r1, r2, r3⟩ := hlast x (h.ops _ q3).1
        rw [q2] at r1; cases r1
        rw [q1] at r2; cases r2
        exact r3
  obtain ⟨f, bl, o1, o2, o3⟩ := g.own
  refine ⟨⟨⟨g.wf, ?_, ?_, by rw [g.len]; exact h.keeps.len, h.keeps.asgX, ?_, ?_, ?_, ?_, ?_⟩, g.cur.trans hcur, ?_, ⟨f, bl, by rw [← h.frm' (List.prefix_refl _)]; exact o1, o2, o3⟩, ?_, ?_⟩, ⟨g.terms, g.binds, ?_⟩, htree⟩
  · intro n t ht; rw [g.terms]; exact h.keeps.term n t ht
  · intro n hn ht; rw [g.binds]; exact h.keeps.bnd n hn ht
  · intro x i hX hi; rw [htid]; exact h.keeps.tid x i hX hi
  · intro x i hX h0 hi; rw [htid] at hi; exact h.keeps.tid0 x i hX h0 hi
  · intro x hx; rw [htid]; exact h.keeps.tid1 x hx
  · intro x hx hX; rw [htid]; exact h.keeps.tidn x hx hX
  · intro j b hb
    obtain ⟨t, q1, q2⟩ := h.keeps.obj j b hb
    obtain ⟨t', r1, r2⟩ := g.obj j _ q1
    refine ⟨t', r1, ?_⟩
    rcases r2 with rfl | ⟨r2, i, r3⟩
    · rcases q2 with rfl | ⟨q2, q3⟩
      · exact .inl rfl
      · exact .inr ⟨q2, .inl (q3.resolve_right (fun h => nomatch h))⟩
    · simp only at r2 r3
      refine .inr ⟨(h.ops _ r3).1, .inr ?_⟩
      cases he : s.ent c b.dest with
      | none =>
        have := g.new b.dest j (by rw [hent]; exact he) r2
        have := (h.ops _ this).2.1
        have := lt_of_get hb
        simp only at *
        omega
      | some e =>
        have := g.mono b.dest e (by rw [hent]; exact he)
        rw [r2] at this
        exact this.symm
  · intro c' hc'
    rw [g.frm c' (by rintro rfl; exact hc' (List.prefix_refl _))]
    refine h.frm c' (fun d hd hp => hc' ((h.under d hd).1.trans hp))
  · intro x hx
    cases he : s''.ent c x with
    | none =>
      cases he' : s.ent c x with
      | none => rfl
      | some e => have := g.mono x e (by rw [hent]; exact he'); rw [he] at this; cases this
    | some e =>
      cases he' : s.ent c x with
      | none => have := g.new x e (by rw [hent]; exact he') he; exact absurd (h.ops _ this).1 hx
      | some e' => have := g.mono x e' (by rw [hent]; exact he'); rw [he] at this; exact this
  · intro x hx
    obtain ⟨e, b, r1, r2, r3⟩ := hlast x hx
    obtain ⟨b', q1, q2, q3⟩ := g.fr x e r1
    rw [r2] at q1; cases q1
    refine ⟨e, b, r1, r2, q2, q3, by rw [r3, htree x (h.keeps.asgX x hx)], ?_⟩
    cases he' : s.ent c x with
    | none =>
      have := g.new x e (by rw [hent]; exact he') r1
      exact .inr ⟨rfl, (h.ops _ this).2.1⟩
    | some e' =>
      have := g.mono x e' (by rw [hent]; exact he')
      rw [r1] at this
      exact .inl this.symm
  · intro j b hb
    obtain ⟨t, q1, q2⟩ := g.obj j b hb
    exact ⟨t, q1, q2.imp id (fun ⟨_, i, hi⟩ => (hXo _ hi).1)⟩

end

end Pyv
