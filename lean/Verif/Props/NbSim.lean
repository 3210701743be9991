import Verif.Props.NbFrames
/-
  C58: the visitor of Binder.lean does to the tree and the record of a signal what the machine of NbTree.lean does.
-/
namespace Pyv

/-- Well-formed tables: every assignment stands under its destination, `x` has at most one, to the whole signal, from the
block with the events `ai`; all signals belong to the module. -/
structure BV.WF (s : BV) (mod x : ScopeChain) (ai : Blk) : Prop where
  flat : FlatTerms s.terms mod
  nore : s.noreorder = false
  objs : ∀ n ids, s.binds.get? n = some ids → ∀ i ∈ ids, ∃ b, s.objs[i]? = some b ∧ b.dest = n
  xs : ∀ ids, s.binds.get? x = some ids → ∃ i b, ids = [i] ∧ s.objs[i]? = some b ∧ b.whole ∧ ai.ok b.always
  has : ai.has → (s.binds.get? x).isSome = true

/-- The tree of a signal (None without assignment). -/
def BV.treeOf (s : BV) (x : ScopeChain) : DF := match s.getBindlist x with | b :: _ => b.tree | [] => .none

/-- The value recorded in a frame for a signal. -/
def Frame.recOf (f : Frame) (x : ScopeChain) : Option DF := ((f.nonblocking.get? x).bind List.head?).map Bind.tree

/-- The value recorded in the frame of a scope. -/
def BV.recAt (s : BV) (c x : ScopeChain) : Option DF := match s.frames.get? c with | some f => f.recOf x | none => none

section
variable {s s' : BV} {mod x : ScopeChain} {ai : Blk} {c : ScopeChain} {p : ExPath}

theorem getBindlist_x (hw : s.WF mod x ai) : s.getBindlist x = [] ∧ s.binds.get? x = none ∨
    ∃ i b, s.binds.get? x = some [i] ∧ s.objs[i]? = some b ∧ b.whole ∧ ai.ok b.always ∧ s.getBindlist x = [b] := by
  cases h : s.binds.get? x with
  | none => exact .inl ⟨by simp [BV.getBindlist, h, BV.deref], rfl⟩
  | some ids =>
    obtain ⟨i, b, rfl, hb, hwh, ha⟩ := hw.xs ids h
    exact .inr ⟨i, b, rfl, hb, hwh, ha, by simp [BV.getBindlist, h, BV.deref, hb]⟩

theorem cur_tree (hw : s.WF mod x ai) : (match (s.getBindlist x).find? (fun c => c.msb = .none ∧ c.lsb = .none ∧ c.ptr = .none) with
      | some b => b.tree | none => .none) = s.treeOf x := by
  rcases getBindlist_x hw with ⟨h, -⟩ | ⟨i, b, -, -, hb, -, h⟩
  · simp [BV.treeOf, h]
  · obtain ⟨h1, h2, h3⟩ := hb
    simp [BV.treeOf, h, h1, h2, h3]

/-- What recording an assignment keeps. -/
structure AddKeeps (s s' : BV) (mod x : ScopeChain) (ai : Blk) : Prop where
  wf : s'.WF mod x ai
  same : s.Same s'
  frames : s'.frames = s.frames
  current : s'.current = s.current

theorem addBind_keeps {n : ScopeChain} {b : Bind} (hw : s.WF mod x ai) (hb : b.dest = n) (hx : n = x → b.whole ∧ ai.ok b.always) :
    AddKeeps s ((s.alloc b).addBindObj n s.objs.length b) mod x ai ∧
    (n ≠ x → ((s.alloc b).addBindObj n s.objs.length b).treeOf x = s.treeOf x) ∧
    (n = x → ((s.alloc b).addBindObj n s.objs.length b).treeOf x = b.tree) := by
  have hlen : ∀ (i : Nat) (b' : Bind), s.objs[i]? = some b' → (s.objs ++ [b])[i]? = some b' := by
    intro i b' h
    rw [List.getElem?_append_left (List.getElem?_eq_some_iff.mp h).1, h]
  have hnew : (s.objs ++ [b])[s.objs.length]? = some b := by simp
  simp only [BV.addBindObj]
  have hbinds : (s.alloc b).binds = s.binds := rfl
  rw [hbinds]
  cases hg : s.binds.get? n with
  | none =>
    simp only
    have hset : ∀ m, (Dict.set s.binds n [s.objs.length]).get? m = if n = m then some [s.objs.length] else s.binds.get? m := by
      intro m; rw [Dict.get?_set]
    refine ⟨⟨⟨hw.flat, hw.nore, ?_, ?_, ?_⟩, ⟨rfl, rfl, rfl, rfl⟩, rfl, rfl⟩, ?_, ?_⟩
    · intro m ids hm i hi
      simp only [hset] at hm
      split at hm
      · rename_i e; subst e
        cases hm
        simp only [List.mem_singleton] at hi
        subst hi
        exact ⟨b, hnew, hb⟩
      · obtain ⟨b', h1, h2⟩ := hw.objs m ids hm i hi
        exact ⟨b', hlen _ _ h1, h2⟩
    · intro ids hm
      simp only [hset] at hm
      split at hm
      · rename_i e
        cases hm
        exact ⟨_, b, rfl, hnew, hx e⟩
      · obtain ⟨i, b', h1, h2, h3⟩ := hw.xs ids hm
        exact ⟨i, b', h1, hlen _ _ h2, h3⟩
    · intro hh
      simp only [hset]
      split
      · rfl
      · exact hw.has hh
    · intro hn
      rcases getBindlist_x hw with ⟨h, h0⟩ | ⟨i, b', hi, hb', -, -, h⟩
      · simp [BV.treeOf, BV.getBindlist, BV.deref, hset, hn, h0]
      · simp [BV.treeOf, BV.getBindlist, BV.deref, hset, hn, hi, BV.alloc, hlen _ _ hb', hb']
    · intro hn
      subst hn
      simp [BV.treeOf, BV.getBindlist, BV.deref, hset, BV.alloc]
  | some ids =>
    simp only
    cases hj : (s.alloc b).findObj b.sameRange ids with
    | some j =>
      simp only
      have hj1 : j ∈ ids := List.mem_of_find?_eq_some hj
      obtain ⟨bj, hbj, hdj⟩ := hw.objs n ids hg j hj1
      have hmod : ∀ i, ((s.alloc b).setTree j b.tree).objs[i]? =
          ((s.objs ++ [b])[i]?).map (fun a => if j = i then { a with tree := b.tree } else a) := by
        intro i
        simp only [BV.setTree, BV.alloc, List.getElem?_modify]
        cases (s.objs ++ [b])[i]? <;> simp
      refine ⟨⟨⟨hw.flat, hw.nore, ?_, ?_, ?_⟩, ⟨rfl, rfl, rfl, rfl⟩, rfl, rfl⟩, ?_, ?_⟩
      · intro m ids' hm i hi
        obtain ⟨b', h1, h2⟩ := hw.objs m ids' hm i hi
        rw [hmod, hlen _ _ h1]
        refine ⟨_, rfl, ?_⟩
        split <;> simpa using h2
      · intro ids' hm
        obtain ⟨i, b', h1, h2, h3, h4⟩ := hw.xs ids' hm
        refine ⟨i, _, h1, by rw [hmod, hlen _ _ h2]; rfl, ?_, ?_⟩
        · split <;> simpa [Bind.whole] using h3
        · split <;> simpa using h4
      · exact hw.has
      · intro hn
        rcases getBindlist_x hw with ⟨h, h0⟩ | ⟨i, b', hi, hb', hwb, -, h⟩
        · simp [BV.treeOf, BV.getBindlist, BV.deref, BV.setTree, BV.alloc, h0]
        · have hne : j ≠ i := by
            rintro rfl
            obtain ⟨b2, h1, h2⟩ := hw.objs x [j] hi j (by simp)
            rw [hbj] at h1
            cases h1
            exact hn (hdj.symm.trans h2)
          have e1 : ((s.alloc b).setTree j b.tree).getBindlist x = [b'] := by
            have : ((s.alloc b).setTree j b.tree).binds = s.binds := rfl
            simp only [BV.getBindlist, this, hi, Option.getD_some, BV.deref]
            simp [hmod, hlen _ _ hb', hne]
          simp [BV.treeOf, e1, h]
      · intro hn
        subst hn
        rcases getBindlist_x hw with ⟨h, h0⟩ | ⟨i, b', hi, hb', hwb, -, h⟩
        · rw [hg] at h0; cases h0
        · rw [hg] at hi
          cases hi
          simp only [List.mem_singleton] at hj1
          subst hj1
          have e1 : ((s.alloc b).setTree j b.tree).getBindlist n = [{ b' with tree := b.tree }] := by
            have : ((s.alloc b).setTree j b.tree).binds = s.binds := rfl
            simp only [BV.getBindlist, this, hg, Option.getD_some, BV.deref]
            simp [hmod, hlen _ _ hb']
          simp [BV.treeOf, e1]
    | none =>
      simp only
      have hnx : n ≠ x := by
        rintro rfl
        obtain ⟨i, b', rfl, h2, h3, h4⟩ := hw.xs ids hg
        simp only [BV.findObj, List.find?_eq_none] at hj
        have := hj i (by simp)
        have hwb := (hx rfl).1
        simp [BV.alloc, hlen _ _ h2, Bind.sameRange, h3.1, h3.2.1, h3.2.2, hwb.1, hwb.2.1, hwb.2.2] at this
      have hset : ∀ m, (Dict.set s.binds n (ids ++ [s.objs.length])).get? m = if n = m then some (ids ++ [s.objs.length]) else s.binds.get? m := by
        intro m; rw [Dict.get?_set]
      refine ⟨⟨⟨hw.flat, hw.nore, ?_, ?_, ?_⟩, ⟨rfl, rfl, rfl, rfl⟩, rfl, rfl⟩, ?_, fun h => absurd h hnx⟩
      · intro m ids' hm i hi
        simp only [hset] at hm
        split at hm
        · rename_i e; subst e
          cases hm
          simp only [List.mem_append, List.mem_singleton] at hi
          rcases hi with hi | rfl
          · obtain ⟨b', h1, h2⟩ := hw.objs n ids hg i hi
            exact ⟨b', hlen _ _ h1, h2⟩
          · exact ⟨b, hnew, hb⟩
        · obtain ⟨b', h1, h2⟩ := hw.objs m ids' hm i hi
          exact ⟨b', hlen _ _ h1, h2⟩
      · intro ids' hm
        simp only [hset, if_neg hnx] at hm
        obtain ⟨i, b', h1, h2, h3⟩ := hw.xs ids' hm
        exact ⟨i, b', h1, hlen _ _ h2, h3⟩
      · intro hh
        simp only [hset, if_neg hnx]
        exact hw.has hh
      · intro hn
        rcases getBindlist_x hw with ⟨h, h0⟩ | ⟨i, b', hi, hb', -, -, h⟩
        · simp [BV.treeOf, BV.getBindlist, BV.deref, hset, hn, h0]
        · simp [BV.treeOf, BV.getBindlist, BV.deref, hset, hn, hi, BV.alloc, hlen _ _ hb', hb']

/-! ### Work in one scope -/

/-- `s'` comes from `s` by work in the scope `c`: only frames below `c` change, and the assignments recorded in `c`. -/
structure Work (s s' : BV) (mod x : ScopeChain) (ai : Blk) (c : ScopeChain) : Prop where
  same : s.Same s'
  current : s'.current = s.current
  wf : s'.WF mod x ai
  frames : ∀ c', ¬ c <+: c' → s'.frames.get? c' = s.frames.get? c'
  own : ∃ f nb, s.frames.get? c = some f ∧ s'.frames.get? c = some { f with nonblocking := nb } ∧
    FrameOK x ai { f with nonblocking := nb }

theorem Work.trans {s s' s'' : BV} (h : Work s s' mod x ai c) (g : Work s' s'' mod x ai c) : Work s s'' mod x ai c := by
  refine ⟨h.same.trans g.same, g.current.trans h.current, g.wf, fun c' hc => (g.frames c' hc).trans (h.frames c' hc), ?_⟩
  obtain ⟨f, nb, h1, h2, h3⟩ := h.own
  obtain ⟨f', nb', g1, g2, g3⟩ := g.own
  rw [h2] at g1
  cases g1
  exact ⟨f, nb', h1, g2, g3⟩

theorem chain_same {fr fr' : Dict ScopeChain Frame} (h : Chain fr mod x ai c p)
    (hs : ∀ c', c' <+: c → fr'.get? c' = fr.get? c') : Chain fr' mod x ai c p := by
  induction h with
  | base l f m h1 h2 h3 h4 h5 h6 h7 h8 h9 h10 h11 =>
    exact .base l f m (by rw [hs _ (List.prefix_refl _)]; exact h1) h2 h3 h4 h5 h6 h7
      (by rw [hs _ (List.prefix_append _ _)]; exact h8) h9 h10 h11
  | block c p l f hc h1 h2 h3 h4 h5 h6 ih =>
    exact .block c p l f (ih (fun c' h => hs c' (h.trans (List.prefix_append _ _))))
      (by rw [hs _ (List.prefix_refl _)]; exact h1) h2 h3 h4 h5 h6
  | cond c p l f e hc h1 h2 h3 h4 h5 h6 h7 ih =>
    exact .cond c p l f e (ih (fun c' h => hs c' (h.trans (List.prefix_append _ _))))
      (by rw [hs _ (List.prefix_refl _)]; exact h1) h2 h3 h4 h5 h6 h7

theorem not_prefix_snoc {c : ScopeChain} {l : ScopeLabel} {c' : ScopeChain} (h : c' <+: c) : ¬ (c ++ [l]) <+: c' := by
  intro g
  have h1 := h.length_le
  have h2 := g.length_le
  simp at h2
  omega

theorem Work.chain (h : Work s s' mod x ai c) (hc : Chain s.frames mod x ai c p) : Chain s'.frames mod x ai c p := by
  obtain ⟨f, nb, h1, h2, h3⟩ := h.own
  have hfr := h.frames
  cases hc with
  | base l f m g1 g2 g3 g4 g5 g6 g7 g8 g9 g10 g11 =>
    rw [g1] at h1; cases h1
    exact .base l _ m h2 h3 g3 g4 g5 g6 g7 (by rw [hfr _ (not_prefix_snoc (List.prefix_refl _))]; exact g8) g9 g10 g11
  | block c p l f hc g1 g2 g3 g4 g5 g6 =>
    rw [g1] at h1; cases h1
    exact .block c _ l _ (chain_same hc (fun c' h => hfr _ (not_prefix_snoc h))) h2 h3 g3 g4 g5 g6
  | cond c p l f e hc g1 g2 g3 g4 g5 g6 g7 =>
    rw [g1] at h1; cases h1
    exact .cond c p l { f with nonblocking := nb } e (chain_same hc (fun c' h => hfr _ (not_prefix_snoc h))) h2 h3 g3 g4 g5 g6 g7

theorem Work.refl (hw : s.WF mod x ai) (hc : Chain s.frames mod x ai c p) : Work s s mod x ai c := by
  obtain ⟨f, h1, h2⟩ := hc.frame
  exact ⟨.refl _, rfl, hw, fun _ _ => rfl, f, f.nonblocking, h1, h1, h2⟩

theorem nodup_setFrame {d : Dict ScopeChain (List Bind)} (h : d.Nodup) (n : ScopeChain) (b : Bind) : (setFrameAssign d n b).Nodup := by
  simp only [setFrameAssign]
  split <;> exact Dict.nodup_set h _ _

theorem setFrame_other {d : Dict ScopeChain (List Bind)} {n : ScopeChain} {b : Bind} (h : n ≠ x) :
    (setFrameAssign d n b).get? x = d.get? x := by
  simp only [setFrameAssign]
  split <;> rw [Dict.get?_set, if_neg h]

theorem setFrame_x {d : Dict ScopeChain (List Bind)} {b : Bind} (hb : b.whole) (ha : ai.ok b.always)
    (h : d.get? x = none ∨ ∃ b, d.get? x = some [b] ∧ b.whole ∧ ai.ok b.always) :
    ∃ b', (setFrameAssign d x b).get? x = some [b'] ∧ b'.whole ∧ ai.ok b'.always ∧ b'.tree = b.tree := by
  simp only [setFrameAssign]
  rcases h with h | ⟨b0, h, hw, h0⟩
  · rw [h]
    exact ⟨b, by simp [Dict.get?_set], hb, ha, rfl⟩
  · rw [h]
    refine ⟨{ b0 with tree := b.tree }, ?_, hw, h0, rfl⟩
    simp [Dict.get?_set, setFrameList, hb.1, hb.2.2, hw.1, hw.2.2]

/-- Recording a nonblocking assignment in the current frame. -/
theorem addNonblocking_ext {n : ScopeChain} {b : Bind} (hw : s.WF mod x ai) (hc : Chain s.frames mod x ai c p) (hcur : s.current = c)
    (hx : n = x → b.whole ∧ ai.ok b.always) (h : s.addNonblocking n b = .ok s') :
    Work s s' mod x ai c ∧ s'.treeOf x = s.treeOf x ∧ s'.recAt c x = (if n = x then some b.tree else s.recAt c x) := by
  obtain ⟨f, h1, h2⟩ := hc.frame
  simp only [BV.addNonblocking, hcur, frame_ok h1, ok_bind, ok_inj] at h
  subst h
  have hget : ∀ c', (Dict.set s.frames c { f with nonblocking := setFrameAssign f.nonblocking n b }).get? c' =
      if c = c' then some { f with nonblocking := setFrameAssign f.nonblocking n b } else s.frames.get? c' := by
    intro c'
    rw [Dict.get?_set]
  have hrec : (n ≠ x → (setFrameAssign f.nonblocking n b).get? x = f.nonblocking.get? x) := setFrame_other
  refine ⟨⟨⟨rfl, rfl, rfl, rfl⟩, hcur.symm, ⟨hw.flat, hw.nore, hw.objs, hw.xs, hw.has⟩, ?_, f, setFrameAssign f.nonblocking n b, h1, ?_, ?_⟩, rfl, ?_⟩
  · intro c' hc'
    rw [hget, if_neg (by rintro rfl; exact hc' (List.prefix_refl _))]
  · rw [hget, if_pos rfl]
  · refine ⟨h2.always, h2.notModule, h2.notF, h2.notT, h2.blocking, nodup_setFrame h2.nodup _ _, ?_⟩
    by_cases e : n = x
    · subst e
      obtain ⟨b', g1, g2, g3, g4⟩ := setFrame_x (hx rfl).1 (hx rfl).2 h2.recd
      exact .inr ⟨b', g1, g2, g3⟩
    · simp only [hrec e]
      exact h2.recd
  · simp only [BV.recAt, hget, if_true, h1, Frame.recOf]
    by_cases e : n = x
    · subst e
      obtain ⟨b', g1, g2, g3, g4⟩ := setFrame_x (hx rfl).1 (hx rfl).2 h2.recd
      simp [g1, g4]
    · simp [hrec e, e]

theorem AddKeeps.work (h : AddKeeps s s' mod x ai) (hc : Chain s.frames mod x ai c p) : Work s s' mod x ai c ∧ s'.recAt c x = s.recAt c x := by
  obtain ⟨f, h1, h2⟩ := hc.frame
  exact ⟨⟨h.same, h.current, h.wf, fun _ _ => by rw [h.frames], f, f.nonblocking, h1, by rw [h.frames]; exact h1, h2⟩,
    by simp [BV.recAt, h.frames]⟩

/-- The object made by `makeBind` for a single destination. -/
theorem makeBind_ok {d : PDst} {raw : DF} {path : CondPath} {a : Option AlwaysInfo} {ty : Str} {b : Bind} {n : ScopeChain}
    (hw : s.WF mod x ai) (hd : d.name = some n) (h : s.makeBind d raw path 1 a ty = .ok b) :
    b.dest = n ∧ b.msb = d.msb ∧ b.lsb = d.lsb ∧ b.ptr = d.ptr ∧ b.always = a ∧
    (n = x → d.msb = .none → d.lsb = .none → d.ptr = .none → bindTree s.reo (s.treeOf x) path raw = .ok b.tree) := by
  simp only [BV.makeBind, hd, bind_ok, ok_inj] at h
  obtain ⟨t, ht, t', ht', rfl⟩ := h
  simp only [gt_iff_lt, lt_self_iff_false, if_false, ok_inj] at ht'
  subst ht'
  refine ⟨rfl, rfl, rfl, rfl, rfl, ?_⟩
  rintro rfl h1 h2 h3
  simp only [h1, h2, h3] at ht
  rw [← cur_tree hw]
  exact ht

end

end Pyv
