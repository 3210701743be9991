import Verif.Props.BaFrames
/-
  C74: what statements do to the tables and frames.
-/
namespace Pyv

/-- What visiting keeps: `asg` are the signals assigned, `E` the references that the frame of the statements has. -/
structure BaKeeps (K : BaEnv) (s s' : BV) (asg : ScopeChain → Prop) (E : ScopeChain → Option Nat) : Prop where
  wf : BaWF K s'
  term : ∀ n t, s.terms.get? n = some t → s'.terms.get? n = some t
  bnd : ∀ n, ¬ K.X n → s.terms.has n = true → s'.binds.get? n = s.binds.get? n
  len : s.objs.length ≤ s'.objs.length
  asgX : ∀ x, asg x → K.X x
  tid : ∀ x i, K.X x → s.tid x = some i → s'.tid x = some i
  tid0 : ∀ x i, K.X x → s.tid x = none → s'.tid x = some i → s.objs.length ≤ i
  tid1 : ∀ x, asg x → s'.tid x ≠ none
  tidn : ∀ x, ¬ asg x → K.X x → s'.tid x = s.tid x
  obj : ∀ j b, s.objs[j]? = some b → ∃ t, s'.objs[j]? = some { b with tree := t } ∧
    (t = b.tree ∨ asg b.dest ∧ (s.tid b.dest = some j ∨ E b.dest = some j))

/-- `s'` comes from `s` by statements in the frame `c`. -/
structure BaStep (K : BaEnv) (s s' : BV) (c : ScopeChain) (asg : ScopeChain → Prop) : Prop where
  keeps : BaKeeps K s s' asg (s.ent c)
  cur : s'.current = s.current
  frm : ∀ c', ¬ c <+: c' → s'.frames.get? c' = s.frames.get? c'
  own : ∃ f bl, s.frames.get? c = some f ∧ s'.frames.get? c = some { f with blocking := bl } ∧ BaFrame K { f with blocking := bl }
  ent0 : ∀ x, ¬ asg x → s'.ent c x = s.ent c x
  ent1 : ∀ x, asg x → ∃ j b, s'.ent c x = some j ∧ s'.objs[j]? = some b ∧ b.dest = x ∧ b.whole ∧ b.tree = s'.treeOf x ∧
    (s.ent c x = some j ∨ s.ent c x = none ∧ s.objs.length ≤ j)

section
variable {K : BaEnv} {s s' s'' : BV} {c : ScopeChain} {p : ExPath} {asg asg' : ScopeChain → Prop}

theorem lt_of_get {l : List Bind} {j : Nat} {b : Bind} (h : l[j]? = some b) : j < l.length := (List.getElem?_eq_some_iff.mp h).1

theorem BaWF.tid_obj (hw : BaWF K s) {x i} (hX : K.X x) (h : s.tid x = some i) :
    s.binds.get? x = some [i] ∧ ∃ b, s.objs[i]? = some b ∧ b.dest = x ∧ b.whole ∧ b.always = some K.info := by
  cases hb : s.binds.get? x with
  | none => simp [BV.tid, hb] at h
  | some ids =>
    obtain ⟨j, b, rfl, h1, h2⟩ := hw.tabs x ids hX hb
    simp only [BV.tid, hb, Option.bind_some, List.head?_cons, Option.some.injEq] at h
    subst h
    exact ⟨rfl, b, h1, h2⟩

theorem BaWF.tid_none (hw : BaWF K s) {x} (hX : K.X x) (h : s.tid x = none) : s.binds.get? x = none := by
  cases hb : s.binds.get? x with
  | none => rfl
  | some ids =>
    obtain ⟨j, b, rfl, h1, h2⟩ := hw.tabs x ids hX hb
    simp [BV.tid, hb] at h

theorem BaWF.bindlist (hw : BaWF K s) {x} (hX : K.X x) :
    (s.tid x = none ∧ s.getBindlist x = []) ∨ ∃ i b, s.tid x = some i ∧ s.objs[i]? = some b ∧ b.dest = x ∧ b.whole ∧ b.always = some K.info ∧ s.getBindlist x = [b] := by
  cases h : s.tid x with
  | none => exact .inl ⟨rfl, by simp [BV.getBindlist, hw.tid_none hX h, BV.deref]⟩
  | some i =>
    obtain ⟨h1, b, h2, h3, h4, h5⟩ := hw.tid_obj hX h
    exact .inr ⟨i, b, rfl, h2, h3, h4, h5, by simp [BV.getBindlist, h1, BV.deref, h2]⟩

theorem BaWF.treeOf_none (hw : BaWF K s) {x} (hX : K.X x) (h : s.tid x = none) : s.treeOf x = .none := by
  rcases hw.bindlist hX with ⟨-, h2⟩ | ⟨i, b, h2, -⟩
  · simp [BV.treeOf, h2]
  · rw [h] at h2; cases h2

theorem BaWF.treeOf_some (hw : BaWF K s) {x i b} (hX : K.X x) (h : s.tid x = some i) (hb : s.objs[i]? = some b) : s.treeOf x = b.tree := by
  rcases hw.bindlist hX with ⟨h2, -⟩ | ⟨j, b', h2, h3, -, -, -, h4⟩
  · rw [h] at h2; cases h2
  · rw [h] at h2; cases h2
    rw [hb] at h3; cases h3
    simp [BV.treeOf, h4]

theorem BaKeeps.tree0 {E} (h : BaKeeps K s s' asg E) (hw : BaWF K s) {x} (hX : K.X x) (hn : ¬ asg x) : s'.treeOf x = s.treeOf x := by
  have ht := h.tidn x hn hX
  cases hi : s.tid x with
  | none => rw [hw.treeOf_none hX hi, h.wf.treeOf_none hX (ht.trans hi)]
  | some i =>
    obtain ⟨-, b, hb, hd, -⟩ := hw.tid_obj hX hi
    obtain ⟨t, h1, h2⟩ := h.obj i b hb
    rw [hw.treeOf_some hX hi hb, h.wf.treeOf_some hX (ht.trans hi) h1]
    rcases h2 with h2 | ⟨h2, -⟩
    · exact h2
    · rw [hd] at h2; exact absurd h2 hn

theorem BaKeeps.refl {E} (hw : BaWF K s) : BaKeeps K s s (fun _ => False) E :=
  ⟨hw, fun _ _ h => h, fun _ _ _ => rfl, Nat.le_refl _, fun _ h => h.elim, fun _ _ _ h => h,
    fun _ _ _ h h' => (by rw [h] at h'; cases h'), fun _ h => h.elim, fun _ _ _ => rfl, fun j b h => ⟨b.tree, h, .inl rfl⟩⟩

theorem BaKeeps.trans {E E'} (h : BaKeeps K s s' asg E) (g : BaKeeps K s' s'' asg' E')
    (hE : ∀ x j, asg' x → E' x = some j → j < s.objs.length → E x = some j) : BaKeeps K s s'' (fun x => asg x ∨ asg' x) E where
  wf := g.wf
  term n t ht := g.term n t (h.term n t ht)
  bnd n hn ht := by
    rw [g.bnd n hn ?_, h.bnd n hn ht]
    rw [Dict.has_eq] at ht ⊢
    obtain ⟨t, ht⟩ := Option.isSome_iff_exists.mp ht
    rw [h.term n t ht]; rfl
  len := Nat.le_trans h.len g.len
  asgX x hx := hx.elim (h.asgX x) (g.asgX x)
  tid x i hX hi := g.tid x i hX (h.tid x i hX hi)
  tid0 x i hX h0 hi := by
    cases h1 : s'.tid x with
    | none => exact Nat.le_trans h.len (g.tid0 x i hX h1 hi)
    | some j =>
      have := g.tid x j hX h1
      rw [hi] at this; cases this
      exact h.tid0 x i hX h0 h1
  tid1 x hx := by
    by_cases h2 : asg' x
    · exact g.tid1 x h2
    · have h1 : asg x := hx.resolve_right h2
      rw [g.tidn x h2 (h.asgX x h1)]
      exact h.tid1 x h1
  tidn x hn hX := by rw [g.tidn x (fun h => hn (.inr h)) hX, h.tidn x (fun h => hn (.inl h)) hX]
  obj j b hb := by
    obtain ⟨t, h1, h2⟩ := h.obj j b hb
    obtain ⟨t', g1, g2⟩ := g.obj j _ h1
    refine ⟨t', g1, ?_⟩
    rcases g2 with rfl | ⟨g2, g3⟩
    · rcases h2 with rfl | ⟨h2, h3⟩
      · exact .inl rfl
      · exact .inr ⟨.inl h2, h3⟩
    · simp only at g2 g3
      refine .inr ⟨.inr g2, ?_⟩
      rcases g3 with g3 | g3
      · left
        cases h0 : s.tid b.dest with
        | none => exact absurd (h.tid0 _ _ (g.asgX _ g2) h0 g3) (Nat.not_le.mpr (lt_of_get hb))
        | some i =>
          have := h.tid _ _ (g.asgX _ g2) h0
          rw [g3] at this
          exact this.symm
      · exact .inr (hE _ _ g2 g3 (lt_of_get hb))

theorem BaStep.chain (h : BaStep K s s' c asg) (hc : BaChain K s.frames c p) : BaChain K s'.frames c p := by
  obtain ⟨f, bl, h1, h2, h3⟩ := h.own
  exact hc.own h.frm h1 h2 h3

theorem BaStep.fr (h : BaStep K s s' c asg) (hf : BaFr K s c) : BaFr K s' c := by
  intro c' h1 h2 x i hi
  by_cases hc : c' = c
  · subst hc
    by_cases ha : asg x
    · obtain ⟨j, b, g1, g2, g3, g4, -⟩ := h.ent1 x ha
      rw [hi] at g1; cases g1
      exact ⟨b, g2, g3, g4⟩
    · rw [h.ent0 x ha] at hi
      obtain ⟨b, g1, g2, g3⟩ := hf c' h1 h2 x i hi
      obtain ⟨t, k1, -⟩ := h.keeps.obj i b g1
      exact ⟨_, k1, g2, g3⟩
  · have hn : ¬ c <+: c' := fun g => hc (h2.eq_of_length (Nat.le_antisymm h2.length_le g.length_le))
    have he : s'.ent c' x = s.ent c' x := by simp only [BV.ent, h.frm c' hn]
    rw [he] at hi
    obtain ⟨b, g1, g2, g3⟩ := hf c' h1 h2 x i hi
    obtain ⟨t, k1, -⟩ := h.keeps.obj i b g1
    exact ⟨_, k1, g2, g3⟩

theorem BaStep.refl (hw : BaWF K s) (hc : BaChain K s.frames c p) : BaStep K s s c (fun _ => False) := by
  obtain ⟨f, h1, h2⟩ := hc.frame
  exact ⟨.refl hw, rfl, fun _ _ => rfl, ⟨f, f.blocking, h1, h1, h2⟩, fun _ _ => rfl, fun _ h => h.elim⟩

theorem BaStep.trans (h : BaStep K s s' c asg) (g : BaStep K s' s'' c asg') :
    BaStep K s s'' c (fun x => asg x ∨ asg' x) where
  keeps := h.keeps.trans g.keeps (by
    intro x j hx hj hl
    by_cases ha : asg x
    · obtain ⟨j', b, g1, -, -, -, -, g5⟩ := h.ent1 x ha
      rw [hj] at g1; cases g1
      rcases g5 with g5 | ⟨-, g5⟩
      · exact g5
      · omega
    · rw [h.ent0 x ha] at hj; exact hj)
  cur := g.cur.trans h.cur
  frm c' hc := (g.frm c' hc).trans (h.frm c' hc)
  own := by
    obtain ⟨f, nb, h1, h2, h3⟩ := h.own
    obtain ⟨f', nb', g1, g2, g3⟩ := g.own
    rw [h2] at g1
    cases g1
    exact ⟨f, nb', h1, g2, g3⟩
  ent0 x hn := by rw [g.ent0 x (fun h => hn (.inr h)), h.ent0 x (fun h => hn (.inl h))]
  ent1 x hx := by
    by_cases h2 : asg' x
    · obtain ⟨j, b, g1, g2, g3, g4, g5, g6⟩ := g.ent1 x h2
      refine ⟨j, b, g1, g2, g3, g4, g5, ?_⟩
      by_cases h1 : asg x
      · obtain ⟨j', b', k1, -, -, -, -, k5⟩ := h.ent1 x h1
        rcases g6 with g6 | ⟨g6, -⟩
        · rw [k1] at g6; cases g6; exact k5
        · rw [k1] at g6; cases g6
      · rw [h.ent0 x h1] at g6
        exact g6.imp id (fun h' => ⟨h'.1, Nat.le_trans h.keeps.len h'.2⟩)
    · have h1 : asg x := hx.resolve_right h2
      obtain ⟨j, b, k1, k2, k3, k4, k5, k6⟩ := h.ent1 x h1
      obtain ⟨t, g1, g2⟩ := g.keeps.obj j b k2
      have ht : t = b.tree := by
        rcases g2 with g2 | ⟨g2, -⟩
        · exact g2
        · rw [k3] at g2; exact absurd g2 h2
      refine ⟨j, _, by rw [g.ent0 x h2]; exact k1, g1, k3, k4, ?_, k6⟩
      simp only [ht, k5, g.keeps.tree0 h.keeps.wf (h.keeps.asgX x h1) h2]

theorem BaStep.congr (h : BaStep K s s' c asg) (he : ∀ x, asg x ↔ asg' x) : BaStep K s s' c asg' := by
  have : asg = asg' := funext fun x => propext (he x)
  rw [← this]; exact h

/-! ### Recording an assignment -/

theorem findObj_one {q : Bind → Bool} {i : Nat} {b : Bind} (h : s.objs[i]? = some b) (hq : q b = true) : s.findObj q [i] = some i := by
  simp [BV.findObj, h, hq]

theorem setTree_get {i j : Nat} {t : DF} {b : Bind} (h : s.objs[j]? = some b) :
    (s.setTree i t).objs[j]? = some { b with tree := if i = j then t else b.tree } := by
  simp only [BV.setTree, List.getElem?_modify, h]
  split <;> simp

theorem alloc_get {j : Nat} {b b' : Bind} (h : s.objs[j]? = some b') : (s.alloc b).objs[j]? = some b' := by
  simp only [BV.alloc]
  rw [List.getElem?_append_left (lt_of_get h), h]

/-- An assignment enters the table. -/
theorem addBind_ba (hw : BaWF K s) {x : ScopeChain} {b : Bind} (hX : K.X x) (hdecl : s.terms.has x = true) (hd : b.dest = x) (hb : b.whole)
    (ha : b.always = some K.info) {s1 : BV} (h1 : s1 = (s.alloc b).addBindObj x s.objs.length b) :
    BaWF K s1 ∧ (s1.frames = s.frames ∧ s1.current = s.current ∧ s1.terms = s.terms ∧ s1.objs.length = s.objs.length + 1) ∧
    (∃ i, s1.tid x = some i ∧ (s.tid x = some i ∨ s.tid x = none ∧ i = s.objs.length)) ∧ s1.treeOf x = b.tree ∧
    (∀ (j : Nat) (b' : Bind), s.objs[j]? = some b' → s1.objs[j]? = some { b' with tree := if s.tid x = some j then b.tree else b'.tree }) ∧
    s1.objs[s.objs.length]? = some b ∧ (∀ n, n ≠ x → s1.binds.get? n = s.binds.get? n) := by
  have hnew : (s.objs ++ [b])[s.objs.length]? = some b := by simp
  have hbinds : (s.alloc b).binds = s.binds := rfl
  simp only [BV.addBindObj, hbinds] at h1
  have fin : BaWF K s1 → ∀ i, s1.tid x = some i → (∃ b', s1.objs[i]? = some b' ∧ b'.tree = b.tree) → s1.treeOf x = b.tree := by
    rintro hw1 i hi ⟨b', hb', ht⟩
    rw [hw1.treeOf_some hX hi hb', ht]
  cases ht : s.tid x with
  | none =>
    rw [hw.tid_none hX ht] at h1
    simp only at h1
    subst h1
    have hget : ∀ n, (Dict.set s.binds x [s.objs.length]).get? n = if x = n then some [s.objs.length] else s.binds.get? n := fun n => Dict.get?_set ..
    have w : BaWF K { s.alloc b with binds := Dict.set s.binds x [s.objs.length] } := by
      refine ⟨hw.ext, hw.flat, hw.nore, hw.fuel, ?_, ?_, ?_⟩
      · intro n ids hn
        simp only [hget] at hn
        split at hn
        · rename_i e; subst e; exact hdecl
        · exact hw.keys n ids hn
      · intro n ids hn i hi
        simp only [hget] at hn
        split at hn
        · rename_i e; cases hn
          simp only [List.mem_singleton] at hi
          subst hi e
          exact ⟨b, hnew, hd⟩
        · obtain ⟨b', h1, h2⟩ := hw.objs n ids hn i hi
          exact ⟨b', alloc_get h1, h2⟩
      · intro y ids hY hn
        simp only [hget] at hn
        split at hn
        · rename_i e; cases hn; subst e
          exact ⟨_, b, rfl, hnew, hd, hb, ha⟩
        · obtain ⟨i, b', h1, h2, h3⟩ := hw.tabs y ids hY hn
          exact ⟨i, b', h1, alloc_get h2, h3⟩
    have ht1 : BV.tid { s.alloc b with binds := Dict.set s.binds x [s.objs.length] } x = some s.objs.length := by
      simp [BV.tid, hget]
    refine ⟨w, ⟨rfl, rfl, rfl, by simp [BV.alloc]⟩, ⟨_, ht1, .inr ⟨rfl, rfl⟩⟩, fin w _ ht1 ⟨b, hnew, rfl⟩, ?_, hnew, ?_⟩
    · intro j b' hb'
      rw [if_neg (by simp)]
      exact alloc_get hb'
    · intro n hn
      rw [hget, if_neg (Ne.symm hn)]
  | some i =>
    obtain ⟨g1, bi, g2, g3, g4, g5⟩ := hw.tid_obj hX ht
    rw [g1] at h1
    have hf : (s.alloc b).findObj b.sameRange [i] = some i := findObj_one (alloc_get g2) (by
      obtain ⟨a1, a2, a3⟩ := g4
      obtain ⟨b1, b2, b3⟩ := hb
      simp [Bind.sameRange, a1, a2, a3, b1, b2, b3])
    simp only [hf] at h1
    have hil := lt_of_get g2
    have hobj : ∀ (j : Nat) (b' : Bind), s.objs[j]? = some b' → s1.objs[j]? = some { b' with tree := if i = j then b.tree else b'.tree } := by
      intro j b' h; rw [h1]; exact setTree_get (alloc_get h)
    have hb1 : s1.binds = s.binds := by rw [h1]; rfl
    have ht1 : s1.terms = s.terms := by rw [h1]; rfl
    have w : BaWF K s1 := by
      refine ⟨by rw [ht1]; exact hw.ext, by rw [ht1]; exact hw.flat, by rw [h1]; exact hw.nore, by rw [h1]; exact hw.fuel, by rw [hb1, ht1]; exact hw.keys, ?_, ?_⟩
      · rw [hb1]
        intro n ids hn i hi
        obtain ⟨b', h1, h2⟩ := hw.objs n ids hn i hi
        exact ⟨_, hobj _ _ h1, h2⟩
      · rw [hb1]
        intro y ids hY hn
        obtain ⟨i, b', h1, h2, h3⟩ := hw.tabs y ids hY hn
        exact ⟨i, _, h1, hobj _ _ h2, h3⟩
    have ht2 : s1.tid x = some i := by rw [← ht]; simp [BV.tid, hb1]
    refine ⟨w, ⟨by rw [h1]; rfl, by rw [h1]; rfl, ht1, by rw [h1]; simp [BV.setTree, BV.alloc]⟩, ⟨i, ht2, .inl rfl⟩, fin w i ht2 ⟨_, hobj i bi g2, by simp⟩, ?_, ?_, ?_⟩
    · intro j b' hb'
      rw [hobj j b' hb']
      simp only [Option.some.injEq]
    · rw [h1]
      have : (s.alloc b).objs[s.objs.length]? = some b := hnew
      rw [setTree_get this, if_neg (by omega)]
    · intro n _; rw [hb1]

/-- A frame learns of an assignment. -/
theorem setBlocking_ba (hw : BaWF K s) {f : Frame} (hf : s.frames.get? c = some f) (hfo : BaFrame K f) {x : ScopeChain} {i : Nat} {b : Bind}
    (hX : K.X x) (hb : b.whole)
    (hent : ∀ e, s.ent c x = some e → ∃ b', s.objs[e]? = some b' ∧ b'.whole) {s1 : BV} (h : s.setBlocking c x i b = .ok s1) :
    BaWF K s1 ∧ (s1.binds = s.binds ∧ s1.current = s.current ∧ s1.terms = s.terms ∧ s1.objs.length = s.objs.length) ∧
    (∀ c', c' ≠ c → s1.frames.get? c' = s.frames.get? c') ∧
    (∃ bl, s1.frames.get? c = some { f with blocking := bl } ∧ BaFrame K { f with blocking := bl }) ∧
    (∃ e, s1.ent c x = some e ∧ (s.ent c x = some e ∨ s.ent c x = none ∧ e = i)) ∧
    (∀ y, y ≠ x → s1.ent c y = s.ent c y) ∧
    (∀ (j : Nat) (b' : Bind), s.objs[j]? = some b' → s1.objs[j]? = some { b' with tree := if s.ent c x = some j then b.tree else b'.tree }) := by
  simp only [BV.setBlocking, frame_ok hf, ok_bind] at h
  cases he : s.ent c x with
  | none =>
    rw [(ent_none hf hfo).mp he] at h
    simp only [ok_inj] at h
    subst h
    have hget : ∀ c', (Dict.set s.frames c { f with blocking := Dict.set f.blocking x [i] }).get? c' =
        if c = c' then some { f with blocking := Dict.set f.blocking x [i] } else s.frames.get? c' := fun c' => Dict.get?_set ..
    have hbl : ∀ y, (Dict.set f.blocking x [i]).get? y = if x = y then some [i] else f.blocking.get? y := fun y => Dict.get?_set ..
    refine ⟨⟨hw.ext, hw.flat, hw.nore, hw.fuel, hw.keys, hw.objs, hw.tabs⟩, ⟨rfl, rfl, rfl, rfl⟩, ?_, ⟨Dict.set f.blocking x [i], by simp only [hget, if_true], ?_⟩, ⟨i, ?_, .inr ⟨rfl, rfl⟩⟩, ?_, ?_⟩
    · intro c' hc'; simp only [hget]; rw [if_neg (Ne.symm hc')]
    · refine ⟨hfo.always, hfo.notModule, hfo.notF, hfo.notT, hfo.nonblocking, Dict.nodup_set hfo.nodup _ _, ?_⟩
      intro y ids hy
      simp only [hbl] at hy
      split at hy
      · rename_i e; cases hy; subst e; exact ⟨hX, i, rfl⟩
      · exact hfo.keys y ids hy
    · simp [BV.ent, hget, hbl]
    · intro y hy; simp [BV.ent, hget, hbl, Ne.symm hy, hf]
    · intro j b' hb'; simpa using hb'
  | some e =>
    obtain ⟨b', hb', hwh⟩ := hent e he
    rw [(ent_some hf hfo).mp he] at h
    have hfind : s.findObj (fun c => decide (c.msb = b.msb ∧ c.ptr = b.ptr)) [e] = some e := findObj_one hb' (by
      simp [hwh.1, hwh.2.2, hb.1, hb.2.2])
    simp only [hfind, ok_inj] at h
    have hobj : ∀ (j : Nat) (b' : Bind), s.objs[j]? = some b' → s1.objs[j]? = some { b' with tree := if e = j then b.tree else b'.tree } := by
      intro j b' h'; rw [← h]; exact setTree_get h'
    have e1 : s1.binds = s.binds := by rw [← h]; rfl
    have e2 : s1.terms = s.terms := by rw [← h]; rfl
    have e3 : s1.frames = s.frames := by rw [← h]; rfl
    refine ⟨⟨by rw [e2]; exact hw.ext, by rw [e2]; exact hw.flat, by rw [← h]; exact hw.nore, by rw [← h]; exact hw.fuel, by rw [e1, e2]; exact hw.keys, ?_, ?_⟩, ⟨e1, by rw [← h]; rfl, e2, by rw [← h]; simp [BV.setTree]⟩, by rw [e3]; exact fun _ _ => rfl,
      ⟨f.blocking, by rw [e3]; exact hf, hfo⟩, ⟨e, by rw [← he]; simp [BV.ent, e3], .inl rfl⟩, fun y _ => by simp [BV.ent, e3], ?_⟩
    · rw [e1]
      intro n ids hn i hi
      obtain ⟨b', h1, h2⟩ := hw.objs n ids hn i hi
      exact ⟨_, hobj _ _ h1, h2⟩
    · rw [e1]
      intro y ids hY hn
      obtain ⟨i, b', h1, h2, h3⟩ := hw.tabs y ids hY hn
      exact ⟨i, _, h1, hobj _ _ h2, h3⟩
    · intro j b' hb'; rw [hobj j b' hb']; simp only [Option.some.injEq]

end

end Pyv
