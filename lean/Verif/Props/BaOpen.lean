import Verif.Props.BaSides
/-
  C74: entering and leaving the frames below a statement.
-/
namespace Pyv

/-- The same tables. -/
structure TabEq (s s' : BV) : Prop where
  terms : s'.terms = s.terms
  binds : s'.binds = s.binds
  objs : s'.objs = s.objs
  fuel : s'.fuel = s.fuel
  nore : s'.noreorder = s.noreorder

/-- `d` is a new frame below `c`, with the path `q`. -/
structure Opened (K : BaEnv) (s s1 : BV) (c d : ScopeChain) (p q : ExPath) : Prop where
  tab : TabEq s s1
  cur : s1.current = d
  below : ∃ l, d = c ++ [l]
  outer : BaChain K s1.frames c p
  inner : BaChain K s1.frames d q
  ent : ∀ x, s1.ent d x = none
  frm : ∀ c', c' ≠ d → s1.frames.get? c' = s.frames.get? c'
  blank : ∃ f, s1.frames.get? d = some f ∧ f.blocking = []

section
variable {K : BaEnv} {s s' s1 s2 s'' : BV} {c d : ScopeChain} {p q : ExPath} {asg asg' : ScopeChain → Prop}

theorem TabEq.refl : TabEq s s := ⟨rfl, rfl, rfl, rfl, rfl⟩

theorem TabEq.trans (h : TabEq s s') (g : TabEq s' s'') : TabEq s s'' :=
  ⟨g.terms.trans h.terms, g.binds.trans h.binds, g.objs.trans h.objs, g.fuel.trans h.fuel, g.nore.trans h.nore⟩

theorem TabEq.current (s : BV) (d : ScopeChain) : TabEq s { s with current := d } := ⟨rfl, rfl, rfl, rfl, rfl⟩

theorem TabEq.wf (h : TabEq s s') (hw : BaWF K s) : BaWF K s' :=
  ⟨by rw [h.terms]; exact hw.ext, by rw [h.terms]; exact hw.flat, by rw [h.nore]; exact hw.nore, by rw [h.fuel]; exact hw.fuel,
    by rw [h.binds, h.terms]; exact hw.keys, by rw [h.binds, h.objs]; exact hw.objs, by rw [h.binds, h.objs]; exact hw.tabs⟩

theorem TabEq.treeOf (h : TabEq s s') (x : ScopeChain) : s'.treeOf x = s.treeOf x := by
  simp only [BV.treeOf, BV.getBindlist, BV.deref, h.binds, h.objs]

theorem TabEq.bindlist (h : TabEq s s') (x : ScopeChain) : s'.getBindlist x = s.getBindlist x := by
  simp only [BV.getBindlist, BV.deref, h.binds, h.objs]

theorem TabEq.tid (h : TabEq s s') (x : ScopeChain) : s'.tid x = s.tid x := by simp only [BV.tid, h.binds]

theorem TabEq.trOf (h : TabEq s s') (i : Nat) : s'.trOf i = s.trOf i := by simp only [BV.trOf, h.objs]

theorem TabEq.symm (h : TabEq s s') : TabEq s' s := ⟨h.terms.symm, h.binds.symm, h.objs.symm, h.fuel.symm, h.nore.symm⟩

theorem BaKeeps.left {E} (h : TabEq s s1) (g : BaKeeps K s1 s2 asg E) : BaKeeps K s s2 asg E where
  wf := g.wf
  term n t ht := g.term n t (by rw [h.terms]; exact ht)
  bnd n hn ht := by rw [g.bnd n hn (by rw [h.terms]; exact ht), h.binds]
  len := by rw [← h.objs]; exact g.len
  asgX := g.asgX
  tid x i hX hi := g.tid x i hX (by rw [h.tid]; exact hi)
  tid0 x i hX h0 hi := by rw [← h.objs]; exact g.tid0 x i hX (by rw [h.tid]; exact h0) hi
  tid1 := g.tid1
  tidn x hn hX := by rw [g.tidn x hn hX, h.tid]
  obj j b hb := by
    obtain ⟨t, h1, h2⟩ := g.obj j b (by rw [h.objs]; exact hb)
    exact ⟨t, h1, by rw [h.tid] at h2; exact h2⟩

theorem BaFr.tab (h : TabEq s s1) (hfr : s1.frames = s.frames) (hf : BaFr K s c) : BaFr K s1 c := by
  intro c' h1 h2 x i hi
  rw [h.objs]
  exact hf c' h1 h2 x i (by simpa only [BV.ent, hfr] using hi)

theorem label_tab {n l : Str} (h : s.label n = .ok (l, s1)) : TabEq s s1 ∧ s1.frames = s.frames ∧ s1.current = s.current := by
  obtain ⟨l1, l2, l3, l4, l5⟩ := label_ok h
  exact ⟨⟨l1.terms, l4, l5, l1.fuel, l1.noreorder⟩, l3, l2⟩

theorem copyNonblocking_ba (hc : BaChain K s.frames c p) (hp : ∃ f, s.frames.get? s.current = some f ∧ f.previous = c) (h : s.copyNonblocking = .ok s') :
    s' = s := by
  obtain ⟨f, hf, he⟩ := hp
  obtain ⟨g, hg, hgo⟩ := hc.frame
  simp only [BV.copyNonblocking, frame_ok hf, ok_bind, he] at h
  split at h
  · cases h; rfl
  · simp only [frame_ok hg, ok_bind, hgo.always, hgo.nonblocking, List.flatMap_nil, Bool.not_true, Bool.false_eq_true, if_false, if_true, ok_inj] at h
    exact h.symm

/-- Entering a frame. -/
theorem enter_ba (hc : BaChain K s.frames c p) (hcur : s.current = c) {l : ScopeLabel} {e : Option Ex} {b : Bool}
    (hl : e = none → l.type ≠ .if_ ∧ l.type ≠ .module)
    (he : ∀ a, e = some a → l.type = .if_ ∧ a.flat = true ∧ a.noCond = true ∧ a.allNames K.Q = true) (h : s.enter l e b = .ok s1) :
    Opened K s s1 c (c ++ [l]) p (p ++ pathStep e b) ∧ ∃ f, s1.frames.get? s1.current = some f ∧ f.previous = c := by
  obtain ⟨f, hf, hfo⟩ := hc.frame
  simp only [BV.enter, hcur, frame_ok hf, ok_bind, BV.push] at h
  split at h
  · cases h
  · simp only [ok_inj] at h
    subst h
    have hget : ∀ c', (Dict.set s.frames (c ++ [l]) { f.child e b with previous := c }).get? c' =
        if c ++ [l] = c' then some { f.child e b with previous := c } else s.frames.get? c' := fun c' => Dict.get?_set ..
    have hne : ∀ c', c' <+: c → c ++ [l] ≠ c' := by
      rintro c' h rfl
      exact not_prefix_snoc h (List.prefix_refl _)
    have hout : BaChain K (Dict.set s.frames (c ++ [l]) { f.child e b with previous := c }) c p :=
      hc.same (fun c' h => by rw [hget, if_neg (hne c' h)])
    have hok : BaFrame K { f.child e b with previous := c } :=
      ⟨hfo.always, rfl, hfo.notF, hfo.notT, rfl, by simp [Frame.child, Dict.Nodup], fun x ids h => nomatch (show (none : Option (List Nat)) = some ids from h)⟩
    refine ⟨⟨⟨rfl, rfl, rfl, rfl, rfl⟩, rfl, ⟨l, rfl⟩, hout, ?_, ?_, ?_, ⟨_, by rw [hget, if_pos rfl], rfl⟩⟩, { f.child e b with previous := c }, by simp only [hget, if_true], rfl⟩
    · cases e with
      | none =>
        simp only [pathStep, List.append_nil]
        exact .block c p l _ hout (by rw [hget, if_pos rfl]) hok rfl rfl rfl (hl rfl)
      | some a =>
        obtain ⟨a1, a2⟩ := he a rfl
        exact .cond c p l _ a hout (by rw [hget, if_pos rfl]) hok rfl rfl a2 rfl a1
    · intro x
      simp only [BV.ent, hget, if_true]
      rfl
    · intro c' hc'
      simp only [hget]
      rw [if_neg (fun h => hc' h.symm)]

/-- Entering a side of a condition. -/
theorem openIf_ba (hc : BaChain K s.frames c p) (hcur : s.current = c) {l : Str} {e : Ex} {b : Bool}
    (he : e.flat = true ∧ e.noCond = true ∧ e.allNames K.Q = true) (h1 : s.enter ⟨l, .if_, none⟩ (some e) b = .ok s1)
    (h2 : s1.copyNonblocking = .ok s2) : Opened K s s2 c (c ++ [⟨l, .if_, none⟩]) p (p ++ [(e, !b)]) := by
  obtain ⟨o, hp⟩ := enter_ba hc hcur (fun h => by cases h) (fun a h => by cases h; exact ⟨rfl, he⟩) h1
  have := copyNonblocking_ba o.outer hp h2
  subst this
  exact o

theorem Opened.prefixFrm (h : Opened K s s1 c d p q) {c' : ScopeChain} (hc : c' <+: c) : s1.frames.get? c' = s.frames.get? c' := by
  obtain ⟨l, rfl⟩ := h.below
  refine h.frm c' ?_
  rintro rfl
  exact not_prefix_snoc hc (List.prefix_refl _)

theorem Opened.fr (h : Opened K s s1 c d p q) (hf : BaFr K s c) : BaFr K s1 d := by
  intro c' h1 h2 x i hi
  obtain ⟨l, rfl⟩ := h.below
  rcases List.prefix_concat_iff.mp h2 with rfl | h2
  · rw [h.ent] at hi; cases hi
  · rw [h.tab.objs]
    exact hf c' h1 h2 x i (by simpa only [BV.ent, h.prefixFrm h2] using hi)

theorem ids_none {d : Dict ScopeChain (List Nat)} {x : ScopeChain} (h : d.get? x = none) :
    ∀ e ∈ d.flatMap (fun e => e.2.map (fun i => (e.1, i))), e.1 ≠ x := by
  intro e he
  simp only [List.mem_flatMap, List.mem_map] at he
  obtain ⟨a, ha, i, hi, rfl⟩ := he
  rintro rfl
  have : d.find? (fun e => decide (e.1 = a.1)) = none := by
    simpa [Dict.get?] using h
  have := List.find?_eq_none.mp this a ha
  simp at this

theorem ids_some {d : Dict ScopeChain (List Nat)} {x : ScopeChain} {i : Nat} (hd : d.Nodup) (h : d.get? x = some [i]) :
    ∃ L0 L1, d.flatMap (fun e => e.2.map (fun i => (e.1, i))) = L0 ++ (x, i) :: L1 ∧ (∀ e ∈ L0, e.1 ≠ x) ∧ ∀ e ∈ L1, e.1 ≠ x := by
  induction d with
  | nil => simp [Dict.get?] at h
  | cons a d ih =>
    obtain ⟨k, v⟩ := a
    simp only [Dict.Nodup, List.map_cons, List.nodup_cons] at hd
    by_cases hk : k = x
    · subst hk
      simp [Dict.get?] at h
      subst h
      refine ⟨[], d.flatMap (fun e => e.2.map (fun i => (e.1, i))), by simp, by simp, ?_⟩
      refine ids_none ?_
      cases hg : Dict.get? d k with
      | none => rfl
      | some v =>
        exfalso
        apply hd.1
        simp only [Dict.get?, Option.map_eq_some_iff] at hg
        obtain ⟨e, he, -⟩ := hg
        have h1 := List.mem_of_find?_eq_some he
        have h2 := List.find?_some he
        simp only [decide_eq_true_eq] at h2
        exact List.mem_map.mpr ⟨e, h1, h2⟩
    · have h' : Dict.get? d x = some [i] := by
        simpa [Dict.get?, List.find?_cons, hk] using h
      obtain ⟨L0, L1, h1, h2, h3⟩ := ih hd.2 h'
      refine ⟨v.map (fun i => (k, i)) ++ L0, L1, by simp only [List.flatMap_cons, h1, List.append_assoc], ?_, h3⟩
      intro e he
      rcases List.mem_append.mp he with he | he
      · obtain ⟨j, -, rfl⟩ := List.mem_map.mp he
        exact hk
      · exact h2 e he

theorem ids_mem {d : Dict ScopeChain (List Nat)} (hd : d.Nodup) (hk : ∀ x ids, d.get? x = some ids → ∃ i, ids = [i]) {e : ScopeChain × Nat}
    (h : e ∈ d.flatMap (fun e => e.2.map (fun i => (e.1, i)))) : d.get? e.1 = some [e.2] := by
  cases hg : d.get? e.1 with
  | none => exact absurd rfl (ids_none hg e h)
  | some ids =>
    obtain ⟨i, rfl⟩ := hk _ _ hg
    obtain ⟨L0, L1, h1, h2, h3⟩ := ids_some hd hg
    rw [h1] at h
    rcases List.mem_append.mp h with h | h
    · exact absurd rfl (h2 e h)
    · rcases List.mem_cons.mp h with h | h
      · have := congrArg Prod.snd h
        simp only at this
        rw [this]
      · exact absurd rfl (h3 e h)

/-- Work in a new frame. -/
theorem side_post (o : Opened K s s1 c d p q) (h : BaStep K s1 s2 d asg) : SidesPost K s s2 c [d] asg := by
  obtain ⟨l, hl⟩ := o.below
  obtain ⟨f, bl, h1, h2, h3⟩ := h.own
  have hops : opsOf s2 [d] = bl.flatMap (fun e => e.2.map (fun i => (e.1, i))) := by simp [opsOf, h2]
  have hent : ∀ x i, s2.ent d x = some i ↔ bl.get? x = some [i] := fun x i => ent_some h2 h3
  have he : s1.ent d = fun _ => none := funext o.ent
  have hkeep := h.keeps.left o.tab
  rw [he] at hkeep
  refine ⟨hkeep, ?_, ?_, ?_, ?_⟩
  · intro d' hd'
    simp only [List.mem_singleton] at hd'
    subst hd' hl
    exact ⟨List.prefix_append _ _, by simp⟩
  · intro c' hc'
    have := hc' d (by simp)
    rw [h.frm c' this, o.frm c' (by rintro rfl; exact this (List.prefix_refl _))]
  · intro e hm
    rw [hops] at hm
    have := ids_mem h3.nodup (fun x ids h => (h3.keys x ids h).2) hm
    have := (hent _ _).mpr this
    by_cases ha : asg e.1
    · obtain ⟨j, b, k1, k2, k3, k4, -, k6⟩ := h.ent1 e.1 ha
      rw [this] at k1; cases k1
      refine ⟨ha, ?_, b, k2, k3, k4⟩
      rw [o.ent] at k6
      rcases k6 with k6 | k6
      · cases k6
      · rw [← o.tab.objs]; exact k6.2
    · rw [h.ent0 _ ha, o.ent] at this; cases this
  · intro x hx
    obtain ⟨j, b, k1, k2, k3, k4, k5, -⟩ := h.ent1 x hx
    obtain ⟨L0, L1, g1, g2, g3⟩ := ids_some h3.nodup ((hent _ _).mp k1)
    refine ⟨L0, j, L1, by rw [hops, g1], g3, fun hm => g2 _ hm rfl, ?_⟩
    simp only [BV.trOf, k2, k5]

/-- Work below an empty frame. -/
theorem deeper_post {fs} (o : Opened K s s1 c d p q) (h : SidesPost K s1 s2 d fs asg) : SidesPost K s s2 c (d :: fs) asg := by
  obtain ⟨l, hl⟩ := o.below
  have hd : s2.frames.get? d = s1.frames.get? d := h.frm' (List.prefix_refl _)
  obtain ⟨f, hf, hb⟩ := o.blank
  have hops : opsOf s2 (d :: fs) = opsOf s2 fs := by simp [opsOf, hd, hf, hb]
  refine ⟨h.keeps.left o.tab, ?_, ?_, ?_, ?_⟩
  · have hcd : c <+: d ∧ d ≠ c := by subst hl; exact ⟨List.prefix_append _ _, by simp⟩
    intro d' hd'
    rcases List.mem_cons.mp hd' with rfl | hd'
    · exact hcd
    · obtain ⟨k1, k2⟩ := h.under d' hd'
      refine ⟨hcd.1.trans k1, ?_⟩
      rintro rfl
      exact hcd.2 (k1.eq_of_length (Nat.le_antisymm k1.length_le hcd.1.length_le))
  · intro c' hc'
    rw [h.frm c' (fun d hd => hc' d (by simp [hd])), o.frm c' (by rintro rfl; exact hc' c' (by simp) (List.prefix_refl _))]
  · intro e he
    rw [hops] at he
    obtain ⟨k1, k2, k3⟩ := h.ops e he
    exact ⟨k1, by rw [← o.tab.objs]; exact k2, k3⟩
  · intro x hx
    rw [hops]
    exact h.last x hx

end

end Pyv
