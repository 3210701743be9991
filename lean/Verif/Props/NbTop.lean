import Verif.Props.NbVisit
/-
  C58: always blocks with nonblocking assignments.
-/
namespace Pyv

/-- Items of a case statement without hierarchical names and computed replication counts. -/
def itemsFlat : List (Option (List Ex)) → Bool
  | [] => true
  | none :: cs => itemsFlat cs
  | some es :: cs => Ex.flatL es && itemsFlat cs

mutual
/-- Nonblocking assignments under if, case, casex and begin-end only, to declared signals, to `x` as a whole; no
hierarchical names and no computed replication counts. -/
def Stmt.plain (res : Str → Option ScopeChain) (x : ScopeChain) : Stmt → Bool
  | .skip => true
  | .nb l r => destOK res x l && r.flat
  | .ifs c t f => c.flat && t.plain res x && f.plain res x
  | .cases k comp cs bs => (k = .case_ || k = .casex) && comp.flat && itemsFlat cs && Stmt.plainL res x bs
  | .block _ ss => Stmt.plainL res x ss
  | _ => false
/-- `Stmt.plain` of all. -/
def Stmt.plainL (res : Str → Option ScopeChain) (x : ScopeChain) : List Stmt → Bool
  | [] => true
  | s :: ss => s.plain res x && Stmt.plainL res x ss
end

section
variable {s s' : BV} {mod x : ScopeChain} {ai : Blk} {c : ScopeChain} {p : ExPath}

/-! ### Frames -/

/-- The condition a frame adds to the path. -/
def pathStep : Option Ex → Bool → ExPath
  | none, _ => []
  | some e, b => [(e, !b)]

/-- The state in a new frame. -/
structure Entered1 (s s1 : BV) (mod x : ScopeChain) (ai : Blk) (c : ScopeChain) (p q : ExPath) (l : ScopeLabel) : Prop where
  same : s.Same s1
  current : s1.current = c ++ [l]
  wf : s1.WF mod x ai
  outer : Chain s1.frames mod x ai c p
  inner : Chain s1.frames mod x ai (c ++ [l]) q
  prev : ∀ f, s1.frames.get? (c ++ [l]) = some f → f.previous = c
  tree : s1.treeOf x = s.treeOf x
  recd : s1.recAt (c ++ [l]) x = none
  recd' : s1.recAt c x = s.recAt c x
  frames : ∀ c', c' ≠ c ++ [l] → s1.frames.get? c' = s.frames.get? c'

theorem enter_chain (hw : s.WF mod x ai) (hc : Chain s.frames mod x ai c p) (hcur : s.current = c) {l : ScopeLabel} {e : Option Ex} {b s1}
    (hl : e = none → l.type ≠ .if_ ∧ l.type ≠ .module) (he : ∀ a, e = some a → l.type = .if_ ∧ a.flat = true) (h : s.enter l e b = .ok s1) :
    Entered1 s s1 mod x ai c p (p ++ pathStep e b) l := by
  obtain ⟨f, hf, hfo⟩ := hc.frame
  simp only [BV.enter, hcur, frame_ok hf, ok_bind, BV.push] at h
  split at h
  · cases h
  · simp only [ok_inj] at h
    subst h
    have hget : ∀ c', (Dict.set s.frames (c ++ [l]) { f.child e b with previous := c }).get? c' =
        if c ++ [l] = c' then some { f.child e b with previous := c } else s.frames.get? c' := fun c' => Dict.get?_set ..
    have hne : ∀ c', c' <+: c → c ++ [l] ≠ c' := by
      rintro c' h rfl
      exact not_prefix_snoc h (List.prefix_refl _)
    have hout : Chain (Dict.set s.frames (c ++ [l]) { f.child e b with previous := c }) mod x ai c p :=
      chain_same hc (fun c' h => by rw [hget, if_neg (hne c' h)])
    have hok : FrameOK x ai { f.child e b with previous := c } :=
      ⟨hfo.always, rfl, hfo.notF, hfo.notT, rfl, by simp [Frame.child, Dict.Nodup], .inl rfl⟩
    refine ⟨⟨rfl, rfl, rfl, rfl⟩, rfl, ⟨hw.flat, hw.nore, hw.objs, hw.xs, hw.has⟩, hout, ?_, ?_, rfl, ?_, ?_, ?_⟩
    · cases e with
      | none =>
        simp only [pathStep, List.append_nil]
        exact .block c p l _ hout (by rw [hget, if_pos rfl]) hok rfl rfl rfl (hl rfl)
      | some a =>
        exact .cond c p l _ a hout (by rw [hget, if_pos rfl]) hok rfl rfl (he a rfl).2 rfl (he a rfl).1
    · intro f' h
      simp only [hget, if_true, Option.some.injEq] at h
      rw [← h]
    · simp only [BV.recAt, hget, if_true]
      rfl
    · simp only [BV.recAt, hget, if_neg (hne c (List.prefix_refl _))]
    · intro c' hc'
      simp only [hget]
      rw [if_neg (fun h => hc' h.symm)]

/-- `s'` comes from `s` by work below the scope `c`. -/
structure Below (s s' : BV) (mod x : ScopeChain) (ai : Blk) (c : ScopeChain) : Prop where
  same : s.Same s'
  wf : s'.WF mod x ai
  frames : ∀ c', (c' = c ∨ ¬ c <+: c') → s'.frames.get? c' = s.frames.get? c'

theorem Below.chain (h : Below s s' mod x ai c) (hc : Chain s.frames mod x ai c p) : Chain s'.frames mod x ai c p :=
  chain_same hc (fun c' h' => h.frames c' (by
    by_cases e : c' = c
    · exact .inl e
    · refine .inr (fun g => e (h'.eq_of_length (Nat.le_antisymm h'.length_le g.length_le)))))

theorem Below.recAt (h : Below s s' mod x ai c) : s'.recAt c x = s.recAt c x := by
  simp [BV.recAt, h.frames c (.inl rfl)]

theorem Below.trans {s s' s'' : BV} (h : Below s s' mod x ai c) (g : Below s' s'' mod x ai c) : Below s s'' mod x ai c :=
  ⟨h.same.trans g.same, g.wf, fun c' hc => (g.frames c' hc).trans (h.frames c' hc)⟩

theorem Below.work (h : Below s s' mod x ai c) (hc : Chain s.frames mod x ai c p) (hcur : s'.current = s.current) : Work s s' mod x ai c := by
  obtain ⟨f, h1, h2⟩ := hc.frame
  exact ⟨h.same, hcur, h.wf, fun c' hc' => h.frames c' (.inr hc'), f, f.nonblocking, h1, by rw [h.frames c (.inl rfl)]; exact h1, h2⟩

theorem Below.current (h : Below s s' mod x ai c) (d : ScopeChain) : Below s { s' with current := d } mod x ai c :=
  ⟨⟨h.same.terms, h.same.octx, h.same.fuel, h.same.noreorder⟩, ⟨h.wf.flat, h.wf.nore, h.wf.objs, h.wf.xs, h.wf.has⟩, h.frames⟩

/-- A visitor acts on the tree and the record of `x` as `tv` does. -/
def Sim (s0 : BV) (mod x : ScopeChain) (ai : Blk) (vis : BV → Py BV)
    (tv : ExPath → DF × Option DF → Py (DF × Option DF)) : Prop :=
  ∀ s s' c p, s0.Same s → s.current = c → Chain s.frames mod x ai c p → s.WF mod x ai → vis s = .ok s' →
    Work s s' mod x ai c ∧ tv p (s.treeOf x, s.recAt c x) = .ok (s'.treeOf x, s'.recAt c x)

theorem copyBlocking_nop {src dst : ScopeChain} {f : Frame} (hf : s.frames.get? src = some f) (hb : f.blocking = []) :
    s.copyBlocking src dst = .ok s := by
  simp [BV.copyBlocking, frame_ok hf, ok_bind, hb]
  rfl

theorem label_ok {n l : Str} {s1 : BV} (h : s.label n = .ok (l, s1)) :
    s.Same s1 ∧ s1.current = s.current ∧ s1.frames = s.frames ∧ s1.binds = s.binds ∧ s1.objs = s.objs := by
  simp only [BV.label, bind_ok, ok_inj, Prod.mk.injEq] at h
  obtain ⟨f, _, _, rfl⟩ := h
  exact ⟨⟨rfl, rfl, rfl, rfl⟩, rfl, rfl, rfl, rfl⟩

/-- One side of a condition. -/
theorem enterCopy_sim {s0 : BV} (h0 : s0.Same s) (hcur : s.current = c) (hc : Chain s.frames mod x ai c p) (hw : s.WF mod x ai)
    {l : Str} {e : Ex} {b : Bool} (he : e.flat = true) {s1 s2 : BV} (h1 : s.enter ⟨l, .if_, none⟩ (some e) b = .ok s1)
    (h2 : s1.copyNonblocking = .ok s2) :
    Below s s2 mod x ai c ∧ s2.current = c ++ [⟨l, .if_, none⟩] ∧
    Chain s2.frames mod x ai (c ++ [⟨l, .if_, none⟩]) (p ++ [(e, !b)]) ∧
    (s0.flatA mod).copy (p ++ [(e, !b)]) (s.treeOf x, s.recAt c x) = .ok (s2.treeOf x, s2.recAt (c ++ [⟨l, .if_, none⟩]) x) := by
  have e1 := enter_chain hw hc hcur (fun h => by cases h) (fun a h => by cases h; exact ⟨rfl, he⟩) h1
  obtain ⟨w, hcopy⟩ := copy_chain e1.wf e1.outer e1.inner e1.prev e1.current e1.recd h2
  refine ⟨⟨e1.same.trans w.same, w.wf, ?_⟩, w.current.trans e1.current, w.chain e1.inner, ?_⟩
  · intro c' hc'
    have hn : ¬ (c ++ [⟨l, .if_, none⟩]) <+: c' := by
      intro hp
      rcases hc' with rfl | h
      · exact not_prefix_snoc (List.prefix_refl _) hp
      · exact h ((List.prefix_append _ _).trans hp)
    rw [w.frames c' hn, e1.frames c' (by rintro rfl; exact hn (List.prefix_refl _))]
  · rw [← flatA_same h0, ← flatA_same e1.same]
    rw [e1.tree, e1.recd'] at hcopy
    exact hcopy

theorem side_sim {s0 : BV} {body : BV → Py BV} {tv} (hb : Sim s0 mod x ai body tv) (h0 : s0.Same s) (hcur : s.current = c)
    (hc : Chain s.frames mod x ai c p) (hw : s.WF mod x ai) {l : Str} {e : Ex} {b : Bool} (he : e.flat = true)
    (h : s.side l e b body = .ok s') :
    Below s s' mod x ai c ∧ s'.current = c ∧ (∃ f, s'.frames.get? (c ++ [⟨l, .if_, none⟩]) = some f ∧ f.blocking = []) ∧
    (∀ c', ¬ (c ++ [⟨l, .if_, none⟩]) <+: c' → s'.frames.get? c' = s.frames.get? c') ∧
    (s0.flatA mod).side (p ++ [(e, !b)]) (tv (p ++ [(e, !b)])) (s.recAt c x) (s.treeOf x) = .ok (s'.treeOf x) := by
  simp only [BV.side, bind_ok, ok_inj] at h
  obtain ⟨s1, h1, s2, h2, s3, h3, rfl⟩ := h
  have e1 := enter_chain hw hc hcur (fun h => by cases h) (fun a h => by cases h; exact ⟨rfl, he⟩) h1
  obtain ⟨w, -⟩ := copy_chain e1.wf e1.outer e1.inner e1.prev e1.current e1.recd h2
  obtain ⟨g1, g2, g3, g4⟩ := enterCopy_sim h0 hcur hc hw he h1 h2
  obtain ⟨w3, t3⟩ := hb s2 s3 _ _ (h0.trans g1.same) g2 g3 g1.wf h3
  have hfr : ∀ c', ¬ (c ++ [⟨l, .if_, none⟩]) <+: c' → s3.frames.get? c' = s.frames.get? c' := by
    intro c' hn
    rw [w3.frames c' hn, w.frames c' hn, e1.frames c' (by rintro rfl; exact hn (List.prefix_refl _))]
  refine ⟨(Below.current ⟨g1.same.trans w3.same, w3.wf, ?_⟩ _), hcur, ?_, hfr, ?_⟩
  · intro c' hc'
    refine hfr c' ?_
    intro hp
    rcases hc' with rfl | h
    · exact not_prefix_snoc (List.prefix_refl _) hp
    · exact h ((List.prefix_append _ _).trans hp)
  · obtain ⟨f, nb, _, h2, h3⟩ := w3.own
    exact ⟨_, h2, h3.blocking⟩
  · simp only [TEnv.side, g4, ok_bind, t3]
    rfl

theorem toELSE_ne (l : Str) : toELSE l ≠ l := by
  intro h
  have := congrArg List.length h
  simp [toELSE] at this

theorem if_sim {s0 : BV} {noT noF : Bool} {vt vf : BV → Py BV} {tt tf : ExPath → DF × Option DF → Py (DF × Option DF)} {e : Ex} (he : e.flat = true)
    (ht : Sim s0 mod x ai vt tt) (hf : Sim s0 mod x ai vf tf) :
    Sim s0 mod x ai (Stmt.visitIf e noT vt noF vf) (fun p st =>
      if noT then (if noF then .ok st else .error .type)
      else do
        let T1 ← (s0.flatA mod).side (p ++ [(e, true)]) (tt (p ++ [(e, true)])) st.2 st.1
        if noF then .ok (T1, st.2)
        else do
          let T2 ← (s0.flatA mod).side (p ++ [(e, false)]) (tf (p ++ [(e, false)])) st.2 T1
          .ok (T2, st.2)) := by
  intro s s' c p h0 hcur hc hw h
  simp only [Stmt.visitIf] at h
  cases noT with
  | true =>
    simp only [if_true] at h ⊢
    cases noF with
    | true => simp only [if_true, ok_inj] at h ⊢; subst h; exact ⟨.refl hw hc, rfl⟩
    | false => simp at h
  | false =>
    simp only [Bool.false_eq_true, if_false, bind_ok] at h ⊢
    obtain ⟨⟨l, sl⟩, hl, s1, h1, h⟩ := h
    obtain ⟨l1, l2, l3, l4, l5⟩ := label_ok hl
    have hwl : sl.WF mod x ai := ⟨by rw [l1.terms]; exact hw.flat, by rw [l1.noreorder]; exact hw.nore, by rw [l4, l5]; exact hw.objs, by rw [l4, l5]; exact hw.xs, by rw [l4]; exact hw.has⟩
    have htl : sl.treeOf x = s.treeOf x := by simp [BV.treeOf, BV.getBindlist, BV.deref, l4, l5]
    have hrl : sl.recAt c x = s.recAt c x := by simp [BV.recAt, l3]
    have hcl : Chain sl.frames mod x ai c p := by rw [l3]; exact hc
    obtain ⟨b1, c1, f1, r1, t1⟩ := side_sim ht (h0.trans l1) (l2.trans hcur) hcl hwl he h1
    have lift : ∀ s2, Below sl s2 mod x ai c → Below s s2 mod x ai c := by
      intro s2 hb
      exact ⟨l1.trans hb.same, hb.wf, fun c' hc' => by rw [hb.frames c' hc', l3]⟩
    simp only [Bool.not_false, htl, hrl] at t1
    cases noF with
    | true =>
      simp only [if_true] at h ⊢
      obtain ⟨f, hf1, hf2⟩ := f1
      rw [hcur, copyBlocking_nop hf1 hf2] at h
      cases h
      refine ⟨(lift _ b1).work hc (c1.trans hcur.symm), s'.treeOf x, t1, ?_⟩
      rw [b1.recAt, hrl]
    | false =>
      simp only [Bool.false_eq_true, if_false, bind_ok] at h ⊢
      obtain ⟨s2, h2, s3, h3, h4⟩ := h
      obtain ⟨b2, c2, f2, r2, t2⟩ := side_sim hf ((h0.trans l1).trans b1.same) c1 (b1.chain hcl) b1.wf he h2
      obtain ⟨f, hf1, hf2⟩ := f1
      obtain ⟨g, hg1, hg2⟩ := f2
      rw [← r2 _ (by
        intro hp
        have := hp.eq_of_length (by simp)
        simp [toELSE_ne] at this)] at hf1
      rw [hcur, copyBlocking_nop hf1 hf2] at h3
      cases h3
      rw [hcur, copyBlocking_nop hg1 hg2] at h4
      cases h4
      have b12 := b1.trans b2
      refine ⟨(lift _ b12).work hc (c2.trans hcur.symm), s1.treeOf x, t1, s'.treeOf x, ?_, ?_⟩
      · simp only [Bool.not_true, b1.recAt, hrl] at t2
        exact t2
      · rw [b12.recAt, hrl]

theorem block_sim {s0 : BV} {name : Option Str} {vb : BV → Py BV} {tb : ExPath → DF × Option DF → Py (DF × Option DF)}
    (hb : Sim s0 mod x ai vb tb) :
    Sim s0 mod x ai (Stmt.visitBlock name vb) (fun p st => do
      let st' ← tb p (st.1, none)
      .ok (st'.1, st.2)) := by
  intro s s' c p h0 hcur hc hw h
  simp only [Stmt.visitBlock, bind_ok] at h
  obtain ⟨⟨l, sl⟩, hl, s1, h1, s2, h2, f, hf, h⟩ := h
  have hl' : s.Same sl ∧ sl.current = s.current ∧ sl.frames = s.frames ∧ sl.binds = s.binds ∧ sl.objs = s.objs := by
    cases name with
    | none => exact label_ok hl
    | some n => simp only [BV.blockLabel, ok_inj, Prod.mk.injEq] at hl; obtain ⟨_, rfl⟩ := hl; exact ⟨.refl _, rfl, rfl, rfl, rfl⟩
  obtain ⟨l1, l2, l3, l4, l5⟩ := hl'
  have hwl : sl.WF mod x ai := ⟨by rw [l1.terms]; exact hw.flat, by rw [l1.noreorder]; exact hw.nore, by rw [l4, l5]; exact hw.objs, by rw [l4, l5]; exact hw.xs, by rw [l4]; exact hw.has⟩
  have htl : sl.treeOf x = s.treeOf x := by simp [BV.treeOf, BV.getBindlist, BV.deref, l4, l5]
  have hcl : Chain sl.frames mod x ai c p := by rw [l3]; exact hc
  have e1 := enter_chain hwl hcl (l2.trans hcur) (fun _ => by simp) (fun a h => by cases h) h1
  simp only [pathStep, List.append_nil] at e1
  obtain ⟨w2, t2⟩ := hb s1 s2 _ _ ((h0.trans l1).trans e1.same) e1.current e1.inner e1.wf h2
  have hfr : ∀ c', ¬ (c ++ [⟨l, .block, none⟩]) <+: c' → s2.frames.get? c' = s.frames.get? c' := by
    intro c' hn
    rw [w2.frames c' hn, e1.frames c' (by rintro rfl; exact hn (List.prefix_refl _)), l3]
  have bl : Below s s2 mod x ai c := by
    refine ⟨(l1.trans e1.same).trans w2.same, w2.wf, ?_⟩
    intro c' hc'
    refine hfr c' ?_
    intro hp
    rcases hc' with rfl | h
    · exact not_prefix_snoc (List.prefix_refl _) hp
    · exact h ((List.prefix_append _ _).trans hp)
  obtain ⟨fc, hfc, hfo⟩ := (bl.chain hc).frame
  have hfe : f = fc := by
    rw [hcur] at hf
    have := frame_get (s := { s2 with current := c }) hf
    simp only [hfc, Option.some.injEq] at this
    exact this.symm
  subst hfe
  simp only [hfo.always, if_true] at h
  obtain ⟨g, nb, _, hg, hgo⟩ := w2.own
  rw [hcur, copyBlocking_nop (s := { s2 with current := c }) hg hgo.blocking] at h
  cases h
  refine ⟨(bl.current c).work hc hcur.symm, ?_⟩
  rw [e1.recd, e1.tree, htl] at t2
  simp only [t2, ok_bind]
  rw [(bl.current c).recAt]
  rfl

theorem list_sim {s0 : BV} {res} {ss : List Stmt} (h : ∀ st ∈ ss, Sim s0 mod x ai (Stmt.visit st) ((s0.flatA mod).visit res x st)) :
    Sim s0 mod x ai (Stmt.visitList ss) ((s0.flatA mod).visitList res x ss) := by
  induction ss with
  | nil =>
    intro s s' c p h0 hcur hc hw h
    simp only [Stmt.visitList, ok_inj] at h
    subst h
    exact ⟨.refl hw hc, rfl⟩
  | cons st ss ih =>
    intro s s' c p h0 hcur hc hw h1
    simp only [Stmt.visitList, bind_ok] at h1
    obtain ⟨s1, h1, h2⟩ := h1
    obtain ⟨w1, t1⟩ := h st (by simp) s s1 c p h0 hcur hc hw h1
    obtain ⟨w2, t2⟩ := ih (fun st hs => h st (by simp [hs])) s1 s' c p (h0.trans w1.same) (w1.current.trans hcur) (w1.chain hc) w1.wf h2
    refine ⟨w1.trans w2, ?_⟩
    simp only [TEnv.visitList, t1, ok_bind, t2]

theorem caseCond_flat {comp e : Ex} {it : Option (List Ex)} (h1 : comp.flat = true) (h2 : ∀ es, it = some es → Ex.flatL es = true)
    (h : caseCond comp it = .ok e) : e.flat = true := by
  cases it with
  | none => simp only [caseCond, ok_inj] at h; subst h; rfl
  | some es =>
    have h2 := h2 es rfl
    cases es with
    | nil => simp [caseCond] at h
    | cons a as =>
      simp only [caseCond, ok_inj] at h
      subst h
      simp only [Ex.flatL, Bool.and_eq_true] at h2
      have : ∀ (as : List Ex) (z : Ex), z.flat = true → Ex.flatL as = true → (as.foldl (fun a e => .bin .lor a (.bin .eq comp e)) z).flat = true := by
        intro as
        induction as with
        | nil => intro z hz _; exact hz
        | cons a as ih =>
          intro z hz ha
          simp only [Ex.flatL, Bool.and_eq_true] at ha
          exact ih _ (by simp [Ex.flat, hz, h1, ha.1]) ha.2
      exact this as _ (by simp [Ex.flat, h1, h2.1]) h2.2

theorem cases_sim {s0 : BV} {res} {comp : Ex} (hcomp : comp.flat = true) (bs : List Stmt)
    (hb : ∀ st ∈ bs, Sim s0 mod x ai (Stmt.visit st) ((s0.flatA mod).visit res x st)) :
    ∀ cs s s' fs c p, itemsFlat cs = true → s0.Same s → s.current = c → Chain s.frames mod x ai c p → s.WF mod x ai →
      Stmt.visitCases comp cs bs s = .ok (s', fs) →
      Below s s' mod x ai c ∧ (∀ fr ∈ fs, ∃ f, s'.frames.get? fr = some f ∧ f.blocking = []) ∧
      (s0.flatA mod).visitCases res x comp bs cs p (s.treeOf x, s.recAt c x) = .ok (s'.treeOf x) := by
  induction bs with
  | nil =>
    intro cs s s' fs c p _ h0 hcur hc hw h
    simp only [Stmt.visitCases, ok_inj, Prod.mk.injEq] at h
    obtain ⟨rfl, rfl⟩ := h
    exact ⟨⟨.refl _, hw, fun _ _ => rfl⟩, by simp, by simp [TEnv.visitCases]⟩
  | cons b bs ih =>
    intro cs s s' fs c p hfl h0 hcur hc hw h
    cases cs with
    | nil =>
      simp only [Stmt.visitCases, ok_inj, Prod.mk.injEq] at h
      obtain ⟨rfl, rfl⟩ := h
      exact ⟨⟨.refl _, hw, fun _ _ => rfl⟩, by simp, by simp [TEnv.visitCases]⟩
    | cons it cs =>
      simp only [Stmt.visitCases, bind_ok] at h
      obtain ⟨e, he, ⟨l, sl⟩, hl, s2, h2, s3, h3, s4, h4, h⟩ := h
      have hit : (∀ es, it = some es → Ex.flatL es = true) ∧ itemsFlat cs = true := by
        cases it with
        | none => exact ⟨fun _ h => (by cases h), hfl⟩
        | some es =>
          simp only [itemsFlat, Bool.and_eq_true] at hfl
          exact ⟨fun _ h => by cases h; exact hfl.1, hfl.2⟩
      have hef := caseCond_flat hcomp hit.1 he
      obtain ⟨l1, l2, l3, l4, l5⟩ := label_ok hl
      have hwl : sl.WF mod x ai := ⟨by rw [l1.terms]; exact hw.flat, by rw [l1.noreorder]; exact hw.nore, by rw [l4, l5]; exact hw.objs, by rw [l4, l5]; exact hw.xs, by rw [l4]; exact hw.has⟩
      have htl : sl.treeOf x = s.treeOf x := by simp [BV.treeOf, BV.getBindlist, BV.deref, l4, l5]
      have hrl : sl.recAt c x = s.recAt c x := by simp [BV.recAt, l3]
      have hcl : Chain sl.frames mod x ai c p := by rw [l3]; exact hc
      have hcurl := l2.trans hcur
      have lift : ∀ s2, Below sl s2 mod x ai c → Below s s2 mod x ai c := by
        intro s2 hb
        exact ⟨l1.trans hb.same, hb.wf, fun c' hc' => by rw [hb.frames c' hc', l3]⟩
      have hside : sl.side l e false (Stmt.visit b) = .ok { s4 with current := c } := by
        simp only [BV.side, h2, ok_bind, h3, h4, hcurl]
      obtain ⟨b1, c1, f1, r1, t1⟩ := side_sim (hb b (by simp)) (h0.trans l1) hcurl hcl hwl hef hside
      simp only [Bool.not_false, htl, hrl] at t1
      rw [hcurl] at h
      split at h
      · rename_i hemp
        simp only [ok_inj, Prod.mk.injEq] at h
        obtain ⟨rfl, rfl⟩ := h
        refine ⟨lift _ b1, ?_, ?_⟩
        · intro fr hfr
          simp only [List.mem_singleton] at hfr
          subst hfr
          exact f1
        · simp only [TEnv.visitCases, he, ok_bind, t1, hemp, if_true]
      · rename_i hemp
        simp only [bind_ok, ok_inj, Prod.mk.injEq] at h
        obtain ⟨s5, h5, s6, h6, ⟨s7, fs'⟩, h7, rfl, rfl⟩ := h
        obtain ⟨g1, g2, g3, g4⟩ := enterCopy_sim ((h0.trans l1).trans b1.same) c1 (b1.chain hcl) b1.wf hef h5 h6
        obtain ⟨i1, i2, i3⟩ := ih (fun st hs => hb st (by simp [hs])) cs s6 s7 fs' _ _ hit.2 (((h0.trans l1).trans b1.same).trans g1.same) g2 g3 g1.wf h7
        have hfr7 : ∀ c', ¬ (c ++ [⟨toELSE l, .if_, none⟩]) <+: c' → s7.frames.get? c' = s6.frames.get? c' := fun c' h => i1.frames c' (.inr h)
        have b7 : Below s6 s7 mod x ai c := by
          refine ⟨i1.same, i1.wf, ?_⟩
          intro c' hc'
          refine hfr7 c' ?_
          intro hp
          rcases hc' with rfl | h
          · exact not_prefix_snoc (List.prefix_refl _) hp
          · exact h ((List.prefix_append _ _).trans hp)
        have e5 := enter_chain b1.wf (b1.chain hcl) c1 (fun h => by cases h) (fun a h => by cases h; exact ⟨rfl, hef⟩) h5
        obtain ⟨w6, -⟩ := copy_chain e5.wf e5.outer e5.inner e5.prev e5.current e5.recd h6
        refine ⟨lift _ ((b1.trans g1).trans b7), ?_, ?_⟩
        · intro fr hfr
          simp only [List.mem_cons] at hfr
          rcases hfr with rfl | rfl | hfr
          · obtain ⟨f, hf1, hf2⟩ := f1
            refine ⟨f, ?_, hf2⟩
            have hnp : ¬ (c ++ [(⟨toELSE l, .if_, none⟩ : ScopeLabel)]) <+: (c ++ [⟨l, .if_, none⟩]) := by
              intro hp
              have := hp.eq_of_length (by simp)
              simp [toELSE_ne] at this
            rw [hfr7 _ hnp, w6.frames _ hnp, e5.frames _ (by intro h; simp [Ne.symm (toELSE_ne l)] at h)]
            exact hf1
          · obtain ⟨f, hf1, hf2⟩ := g3.frame
            exact ⟨f, by rw [i1.frames _ (.inl rfl)]; exact hf1, hf2.blocking⟩
          · exact i2 fr hfr
        · rw [b1.recAt, hrl] at g4
          simp only [Bool.not_true] at g4 i3
          simp only [TEnv.visitCases, he, ok_bind, t1, hemp, Bool.false_eq_true, if_false, g4]
          exact i3

theorem copyAll_nop {fs : List ScopeChain} {dst : ScopeChain} (h : ∀ fr ∈ fs, ∃ f, s.frames.get? fr = some f ∧ f.blocking = []) :
    fs.foldlM (fun st f => st.copyBlocking f dst) s = .ok s := by
  induction fs with
  | nil => rfl
  | cons fr fs ih =>
    obtain ⟨f, h1, h2⟩ := h fr (by simp)
    rw [List.foldlM_cons, copyBlocking_nop h1 h2, ok_bind]
    exact ih (fun fr hf => h fr (by simp [hf]))

theorem plainL_iff {res} {ss : List Stmt} : Stmt.plainL res x ss = true ↔ ∀ st ∈ ss, st.plain res x = true := by
  induction ss with
  | nil => simp [Stmt.plainL]
  | cons a as ih => simp [Stmt.plainL, ih]

theorem assigns_mem {res} {ss : List Stmt} {st : Stmt} (hs : st ∈ ss) (h : st.assigns res x = true) : Stmt.assignsL res x ss = true := by
  cases e : Stmt.assignsL res x ss with
  | true => rfl
  | false => rw [assignsL_iff.mp e st hs] at h; cases h

theorem visit_sim (s0 : BV) (st : Stmt) : st.plain (resOf s0.terms mod) x = true →
    (st.assigns (resOf s0.terms mod) x = true → ai.ok (some ai.info)) →
    Sim s0 mod x ai (Stmt.visit st) ((s0.flatA mod).visit (resOf s0.terms mod) x st) := by
  induction st using Stmt.ind with
  | skip =>
    intro _ _ s s' c p h0 hcur hc hw h
    simp only [Stmt.visit, ok_inj] at h
    subst h
    exact ⟨.refl hw hc, by simp [TEnv.visit]⟩
  | nb l r =>
    intro hp hok s s' c p h0 hcur hc hw h
    simp only [Stmt.plain, Bool.and_eq_true] at hp
    obtain ⟨f, hf, hfo⟩ := hc.frame
    simp only [Stmt.visit, hcur, frame_ok hf, ok_bind, hfo.notF, Bool.false_eq_true, if_false, bind_ok] at h
    obtain ⟨a, ha, h⟩ := h
    have := alwaysStatus_chain hc _ _ ha
    subst this
    have hd : ∃ n y, baseName l = some n ∧ resOf s.terms mod n = some y ∧ (y = x ↔ isWhole (resOf s0.terms mod) x l = true) ∧
        (y = x → ∃ m, l = .ident [] m) := by
      have hd := hp.1
      simp only [destOK, Bool.or_eq_true] at hd
      rcases hd with hd | hd
      · obtain ⟨n, rfl, hn⟩ := isWhole_iff.mp hd
        exact ⟨n, x, rfl, by rw [h0.terms]; exact hn, by simp [hd], fun _ => ⟨n, rfl⟩⟩
      · split at hd
        · rename_i n hn
          split at hd
          · rename_i y hy
            simp only [decide_eq_true_eq] at hd
            refine ⟨n, y, hn, by rw [h0.terms]; exact hy, ⟨fun h => absurd h hd, fun h => ?_⟩, fun h => absurd h hd⟩
            obtain ⟨m, rfl, hm⟩ := isWhole_iff.mp h
            simp only [baseName, Option.some.injEq] at hn
            subst hn
            rw [hy] at hm
            cases hm
            rfl
          · cases hd
        · cases hd
    obtain ⟨n, y, h1, h2, h3, h4⟩ := hd
    obtain ⟨w, hh⟩ := addBind_chain hw hc hcur h1 h2 h4 (fun _ => hp.2) (fun e => hok (by simpa [Stmt.assigns] using h3.mp e)) h
    refine ⟨w, ?_⟩
    rw [← flatA_same h0]
    by_cases e : y = x
    · rw [if_pos e] at hh
      obtain ⟨raw, r1, r2, r3⟩ := hh
      simp only [TEnv.visit, if_pos (h3.mp e), r1, ok_bind, r2, r3]
    · rw [if_neg e] at hh
      have hne : ¬ isWhole (resOf s0.terms mod) x l = true := fun h => e (h3.mpr h)
      simp only [TEnv.visit, if_neg hne, hh.1, hh.2]
  | ba l r => intro hp; simp [Stmt.plain] at hp
  | ifs e t f iht ihf =>
    intro hp hok
    simp only [Stmt.plain, Bool.and_eq_true] at hp
    have := if_sim (noT := t.isSkip) (noF := f.isSkip) hp.1.1 (iht hp.1.2 (fun h => hok (by simp [Stmt.assigns, h]))) (ihf hp.2 (fun h => hok (by simp [Stmt.assigns, h])))
    intro s s' c p h0 hcur hc hw h
    simp only [Stmt.visit] at h
    obtain ⟨w, ht⟩ := this s s' c p h0 hcur hc hw h
    refine ⟨w, ?_⟩
    rw [TEnv.visit]
    exact ht
  | cases k comp cs bs ih =>
    intro hp hok
    simp only [Stmt.plain, Bool.and_eq_true, Bool.or_eq_true, decide_eq_true_eq] at hp
    obtain ⟨⟨⟨hk, hcomp⟩, hfl⟩, hbs⟩ := hp
    intro s s' c p h0 hcur hc hw h
    have h' : (do
      let (s', fs) ← Stmt.visitCases comp cs bs s
      fs.foldlM (fun (st : BV) f => st.copyBlocking f s.current) { s' with current := s.current }) = .ok s' := by
      rcases hk with rfl | rfl <;> (rw [Stmt.visit] at h <;> first | exact h | (intro h; cases h))
    simp only [bind_ok] at h'
    obtain ⟨⟨s1, fs⟩, h1, h2⟩ := h'
    obtain ⟨b1, f1, t1⟩ := cases_sim hcomp bs (fun st hs => ih st hs (plainL_iff.mp hbs st hs) (fun h => hok (assigns_mem hs h))) cs s s1 fs c p hfl h0 hcur hc hw h1
    simp only at h2
    rw [hcur, copyAll_nop (s := { s1 with current := c }) f1] at h2
    cases h2
    refine ⟨(b1.current c).work hc hcur.symm, ?_⟩
    rw [TEnv.visit, if_pos hk, t1, ok_bind, (b1.current c).recAt]
    rfl
  | block n ss ih =>
    intro hp hok
    simp only [Stmt.plain] at hp
    have := block_sim (name := n) (list_sim (res := resOf s0.terms mod) (fun st hs => ih st hs (plainL_iff.mp hp st hs) (fun h => hok (assigns_mem hs h))))
    intro s s' c p h0 hcur hc hw h
    simp only [Stmt.visit] at h
    obtain ⟨w, ht⟩ := this s s' c p h0 hcur hc hw h
    refine ⟨w, ?_⟩
    rw [TEnv.visit]
    exact ht
  | fors a b c d e s _ => intro hp; simp [Stmt.plain] at hp
  | whiles c s _ => intro hp; simp [Stmt.plain] at hp

/-! ### Always blocks -/

/-- The scope is a module whose signals belong to the module itself. -/
structure BV.ModAt (s : BV) (mod : ScopeChain) : Prop where
  ne : mod ≠ []
  frame : ∃ m, s.frames.get? mod = some m ∧ m.isModule = true ∧ m.isAlways = false ∧ m.cond = none
  flat : FlatTerms s.terms mod
  nore : s.noreorder = false

/-- The visitor is at a module whose signals belong to the module itself; the assignments stand under their
destinations. -/
structure BV.AtModule (s : BV) (mod : ScopeChain) : Prop extends BV.ModAt s mod where
  current : s.current = mod
  objs : ∀ n ids, s.binds.get? n = some ids → ∀ i ∈ ids, ∃ b, s.objs[i]? = some b ∧ b.dest = n

theorem search_mod (hne : mod ≠ []) {m : Frame} (hf : s.frames.get? mod = some m) (hm : m.isModule = true) (n : Str) :
    s.searchTerminal n mod = .ok (resOf s.terms mod n) := by
  rw [BV.searchTerminal, dif_neg hne]
  split
  · rename_i h4; simp [resOf, h4]
  · rename_i h4; simp [frame_ok hf, ok_bind, hm, resOf, h4]

theorem always_sim {ls : List Sens} {body : Stmt} (hm : s.AtModule mod) (h : s.visitAlways ls body = .ok s') :
    ∃ (s1 : BV) (info : AlwaysInfo) (l : ScopeLabel), s.alwaysInfo mod ls = .ok info ∧ s.Same s1 ∧ s1.binds = s.binds ∧ s1.objs = s.objs ∧
      s1.current = mod ++ [l] ∧ (∀ c', c' ≠ mod ++ [l] → s1.frames.get? c' = s.frames.get? c') ∧
      (∀ x ok has, Chain s1.frames mod x ⟨info, ok, has⟩ (mod ++ [l]) []) ∧ (∀ x, s1.recAt (mod ++ [l]) x = none) ∧
      ∃ s2, body.visit s1 = .ok s2 ∧ s' = { s2 with current := mod } := by
  obtain ⟨m, hm1, hm2, hm3, hm4⟩ := hm.frame
  simp only [BV.visitAlways, bind_ok, ok_inj] at h
  obtain ⟨⟨l, s0⟩, hl, f, hf, s1, h1, info, hi, g, hg, s2, h2, rfl⟩ := h
  obtain ⟨l1, l2, l3, l4, l5⟩ := label_ok hl
  have hc0 : s0.current = mod := l2.trans hm.current
  simp only [BV.push, hc0] at h1
  split at h1
  · cases h1
  · simp only [ok_inj] at h1
    subst h1
    have hget : ∀ (F : Frame) c', (Dict.set s0.frames (mod ++ [⟨l, .always, none⟩]) F).get? c' =
        if mod ++ [⟨l, .always, none⟩] = c' then some F else s.frames.get? c' := by
      intro F c'
      rw [Dict.get?_set, l3]
    have hg' := frame_get hg
    simp only [hget, if_true, Option.some.injEq] at hg'
    subst hg'
    have hget2 : ∀ (F G : Frame) c', (Dict.set (Dict.set s0.frames (mod ++ [⟨l, .always, none⟩]) F) (mod ++ [⟨l, .always, none⟩]) G).get? c' =
        if mod ++ [⟨l, .always, none⟩] = c' then some G else s.frames.get? c' := by
      intro F G c'
      rw [Dict.get?_set]
      split
      · rfl
      · rename_i h; rw [hget, if_neg h]
    have hmne : mod ++ [(⟨l, .always, none⟩ : ScopeLabel)] ≠ mod := by simp
    have hinfo : s.alwaysInfo mod ls = .ok info := by
      rw [← hi, hm.current]
      unfold BV.alwaysInfo
      have : ∀ F : Frame, BV.sensStep { s0 with frames := Dict.set s0.frames (mod ++ [⟨l, .always, none⟩]) F, current := mod ++ [⟨l, .always, none⟩] } mod
          = s.sensStep mod := by
        intro F
        funext st e
        have h1 : ∀ n, BV.searchTerminal { s0 with frames := Dict.set s0.frames (mod ++ [⟨l, .always, none⟩]) F, current := mod ++ [⟨l, .always, none⟩] } n mod
            = s.searchTerminal n mod := by
          intro n
          rw [search_mod hm.ne hm1 hm2, search_mod (m := m) hm.ne (by simp only [hget, if_neg hmne]; exact hm1) hm2]
          simp only [l1.terms]
        unfold BV.sensStep
        simp only [h1]
      rw [this]
    refine ⟨_, info, ⟨l, .always, none⟩, hinfo, ?_, ?_, ?_, ?_, ?_, ?_, ?_, s2, h2, by rw [hm.current]⟩
    · exact ⟨l1.terms, l1.octx, l1.fuel, l1.noreorder⟩
    · exact l4
    · exact l5
    · rfl
    · intro c' hc'
      simp only [hget2]
      rw [if_neg (fun h => hc' h.symm)]
    · intro x ok has
      refine .base ⟨l, .always, none⟩ _ m (by simp only [hget2, if_true]; rfl) ?_ rfl rfl rfl (by simp) hm.ne
        (by simp only [hget2, if_neg hmne]; exact hm1) hm2 hm3 hm4
      exact ⟨rfl, rfl, rfl, rfl, rfl, by simp [Dict.Nodup], .inl rfl⟩
    · intro x
      simp only [BV.recAt, hget2, if_true]
      rfl

/-- After an always block the visitor is at the module again. -/
theorem always_module {ls : List Sens} {body : Stmt} (hm : s.AtModule mod) (hp : body.plain (resOf s.terms mod) x = true)
    (hx : s.binds.get? x = none ∨ ∃ i b, s.binds.get? x = some [i] ∧ s.objs[i]? = some b ∧ b.whole)
    (h : s.visitAlways ls body = .ok s') : s'.AtModule mod ∧ s.Same s' ∧
      (s'.binds.get? x = none ∨ ∃ i b, s'.binds.get? x = some [i] ∧ s'.objs[i]? = some b ∧ b.whole) := by
  obtain ⟨s1, info, l, hi, q1, q2, q3, q4, q5, q6, q7, s2, h2, rfl⟩ := always_sim hm h
  have hw : s1.WF mod x ⟨info, fun _ => True, False⟩ := by
    refine ⟨by rw [q1.terms]; exact hm.flat, by rw [q1.noreorder]; exact hm.nore, by rw [q2, q3]; exact hm.objs, ?_, fun h => h.elim⟩
    intro ids hids
    rw [q2] at hids
    rw [q3]
    rcases hx with hx | ⟨i, b, h1, h2, h3⟩
    · rw [hx] at hids; cases hids
    · rw [h1] at hids; cases hids; exact ⟨i, b, rfl, h2, h3, trivial⟩
  obtain ⟨w, -⟩ := visit_sim s body hp (fun _ => trivial) s1 s2 _ [] q1 q4 (q6 x _ _) hw h2
  have hmne : ¬ (mod ++ [l]) <+: mod := not_prefix_snoc (List.prefix_refl _)
  refine ⟨⟨⟨hm.ne, ?_, w.wf.flat, w.wf.nore⟩, rfl, w.wf.objs⟩, ⟨(q1.trans w.same).terms, (q1.trans w.same).octx, (q1.trans w.same).fuel, (q1.trans w.same).noreorder⟩, ?_⟩
  · obtain ⟨m, hm1, hm2⟩ := hm.frame
    exact ⟨m, by show s2.frames.get? mod = _; rw [w.frames mod hmne, q5 mod (by simp)]; exact hm1, hm2⟩
  · rcases getBindlist_x w.wf with ⟨-, h⟩ | ⟨i, b, h1, h2, h3, -⟩
    · exact .inl h
    · exact .inr ⟨i, b, h1, h2, h3⟩

/-- A block that never assigns `x` leaves it without assignment. -/
theorem C58_nonblocking_noassign (s s' : BV) (mod x : ScopeChain) (ls : List Sens) (body : Stmt) (hm : s.AtModule mod)
    (hx : s.binds.get? x = none) (hp : body.plain (resOf s.terms mod) x = true) (ha : body.assigns (resOf s.terms mod) x = false)
    (h : s.visitAlways ls body = .ok s') : s'.getBindlist x = [] := by
  obtain ⟨s1, info, l, hi, q1, q2, q3, q4, q5, q6, q7, s2, h2, rfl⟩ := always_sim hm h
  have hw : s1.WF mod x ⟨info, fun _ => False, False⟩ := by
    refine ⟨by rw [q1.terms]; exact hm.flat, by rw [q1.noreorder]; exact hm.nore, by rw [q2, q3]; exact hm.objs, ?_, fun h => h.elim⟩
    intro ids hids
    rw [q2, hx] at hids
    cases hids
  obtain ⟨w, -⟩ := visit_sim s body hp (fun h => by rw [ha] at h; cases h) s1 s2 _ [] q1 q4 (q6 x _ _) hw h2
  rcases getBindlist_x w.wf with ⟨h, -⟩ | ⟨_, _, _, _, _, h, _⟩
  · exact h
  · exact h.elim

/-- **C58** (partial: always blocks with nonblocking assignments under if, case, casex and begin-end, in a module whose
signals belong to the module, and for the orders of assignments to `x` that `Stmt.chk` accepts).  The tree recorded for a
signal that nothing else assigns gives, whenever the execution of the block is known, the value the block schedules last
for the signal, and nothing when it schedules none.  There is at most one tree, for the whole signal, and it carries the
clock and the reset of the block; without a tree the block never schedules anything for the signal. -/
theorem C58_nonblocking_partial (s s' : BV) (mod x : ScopeChain) (ls : List Sens) (body : Stmt) (hm : s.AtModule mod)
    (hx : s.binds.get? x = none) (hp : body.plain (resOf s.terms mod) x = true)
    (hc : (body.chk (resOf s.terms mod) x .fresh).isSome = true) (h : s.visitAlways ls body = .ok s') :
    (body.assigns (resOf s.terms mod) x = false → s'.getBindlist x = []) ∧
    ((s'.getBindlist x = [] ∧ ∀ ρ, s.ArraysAgree ρ → ∀ v, nbRun ρ (resOf s.terms mod) x body none = some v → v = none) ∨
      ∃ b, s'.getBindlist x = [b] ∧ b.whole ∧
        (∃ info, s.alwaysInfo mod ls = .ok info ∧ b.always = some info) ∧
        ∀ ρ, s.ArraysAgree ρ → ∀ v, nbRun ρ (resOf s.terms mod) x body none = some v → sched ρ b.tree = some v) := by
  obtain ⟨s1, info, l, hi, q1, q2, q3, q4, q5, q6, q7, s2, h2, rfl⟩ := always_sim hm h
  have hw : ∀ ok, s1.WF mod x ⟨info, ok, False⟩ := by
    intro ok
    refine ⟨by rw [q1.terms]; exact hm.flat, by rw [q1.noreorder]; exact hm.nore, by rw [q2, q3]; exact hm.objs, ?_, fun h => h.elim⟩
    intro ids hids
    rw [q2, hx] at hids
    cases hids
  refine ⟨fun ha => C58_nonblocking_noassign s _ mod x ls body hm hx hp ha h, ?_⟩
  · obtain ⟨w, ht⟩ := visit_sim (ai := ⟨info, fun a => a = some info, False⟩) s body hp (fun _ => rfl) s1 s2 _ [] q1 q4 (q6 x _ _) (hw _) h2
    have ht1 : s1.treeOf x = .none := by simp [BV.treeOf, BV.getBindlist, q2, hx, BV.deref]
    rw [ht1, q7 x] at ht
    obtain ⟨st', hst⟩ := Option.isSome_iff_exists.mp hc
    have hgood := visit_good (flatA_norm s mod) body [] .fresh .none none _ _ st' (by intro q hq; simp at hq) ht hst
      ⟨by simp [nf], rfl, by intro p' hp'; simp only [TEnv.path, ok_inj] at hp'; subst hp'; simp [splitAlong, subAt]⟩
    have hval : ∀ ρ, s.ArraysAgree ρ → ∀ v, nbRun ρ (resOf s.terms mod) x body none = some v → sched ρ (s2.treeOf x) = some v := by
      intro ρ hρ v hv
      have := (hgood.2.2.2.2.2 ρ (flatA_sound hρ mod)).2 rfl (fun h => by cases h) none v (by simp [sched]) hv
      exact this.1
    rcases getBindlist_x w.wf with ⟨h, -⟩ | ⟨i, b, h1, h3, h4, h5, h6⟩
    · refine .inl ⟨h, ?_⟩
      intro ρ hρ v hv
      have := hval ρ hρ v hv
      rw [BV.treeOf, h] at this
      simpa [sched] using this.symm
    · refine .inr ⟨b, h6, h4, ⟨info, hi, h5⟩, ?_⟩
      intro ρ hρ v hv
      have := hval ρ hρ v hv
      rw [BV.treeOf, h6] at this
      exact this

theorem side_noassign {A : TEnv} {q : ExPath} {body : DF × Option DF → Py (DF × Option DF)} {T T' : DF}
    (hb : ∀ r, body (T, none) = .ok r → r = (T, none)) (h : A.side q body none T = .ok T') : T' = T := by
  simp only [TEnv.side, TEnv.copy, ok_bind, bind_ok, ok_inj] at h
  obtain ⟨r, hr, rfl⟩ := h
  rw [hb r hr]

theorem cases_noassign {A : TEnv} {res} {comp : Ex} {T : DF} (bs : List Stmt)
    (ih : ∀ st ∈ bs, ∀ p r, A.visit res x st p (T, none) = .ok r → r = (T, none)) :
    ∀ cs p T', A.visitCases res x comp bs cs p (T, none) = .ok T' → T' = T := by
  induction bs with
  | nil => intro cs p T' h; simp only [TEnv.visitCases, ok_inj] at h; exact h.symm
  | cons b bs ihb =>
    intro cs p T' h
    cases cs with
    | nil => simp only [TEnv.visitCases, ok_inj] at h; exact h.symm
    | cons it cs =>
      simp only [TEnv.visitCases, bind_ok] at h
      obtain ⟨e, _, T1, h1, h⟩ := h
      have := side_noassign (fun r hr => ih b (by simp) _ r hr) h1
      subst this
      split at h
      · simp only [ok_inj] at h; exact h.symm
      · simp only [TEnv.copy, bind_ok, ok_inj] at h
        obtain ⟨_, rfl, h⟩ := h
        exact ihb (fun st hs => ih st (by simp [hs])) _ _ _ h

theorem visit_noassign {A : TEnv} {res} (T : DF) (st : Stmt) : st.assigns res x = false → ∀ p r,
    A.visit res x st p (T, none) = .ok r → r = (T, none) := by
  have key : ∀ (ss : List Stmt) (_ : ∀ st ∈ ss, ∀ p r, A.visit res x st p (T, none) = .ok r → r = (T, none)) p r,
      A.visitList res x ss p (T, none) = .ok r → r = (T, none) := by
    intro ss
    induction ss with
    | nil => intro _ p r h; simp only [TEnv.visitList, ok_inj] at h; exact h.symm
    | cons a as ih =>
      intro hh p r h
      simp only [TEnv.visitList, bind_ok] at h
      obtain ⟨r1, h1, h⟩ := h
      have := hh a (by simp) _ _ h1
      subst this
      exact ih (fun st hs => hh st (by simp [hs])) _ _ h
  induction st using Stmt.ind with
  | skip => intro _ p r h; simp only [TEnv.visit, ok_inj] at h; exact h.symm
  | nb l r =>
    intro ha p q h
    simp only [Stmt.assigns] at ha
    simp only [TEnv.visit, ha, Bool.false_eq_true, if_false, ok_inj] at h
    exact h.symm
  | ba l r => intro _ p r h; simp only [TEnv.visit, ok_inj] at h; exact h.symm
  | ifs c t f iht ihf =>
    intro ha p r h
    simp only [Stmt.assigns, Bool.or_eq_false_iff] at ha
    rw [TEnv.visit] at h
    split at h
    · split at h
      · simp only [ok_inj] at h; exact h.symm
      · cases h
    · simp only [bind_ok] at h
      obtain ⟨T1, h1, h⟩ := h
      have := side_noassign (iht ha.1 _) h1
      subst this
      split at h
      · simp only [ok_inj] at h; exact h.symm
      · simp only [bind_ok, ok_inj] at h
        obtain ⟨T2, h2, rfl⟩ := h
        rw [side_noassign (ihf ha.2 _) h2]
  | cases k comp cs bs ih =>
    intro ha p r h
    simp only [Stmt.assigns] at ha
    rw [TEnv.visit] at h
    split at h
    · simp only [bind_ok, ok_inj] at h
      obtain ⟨T1, h1, rfl⟩ := h
      rw [cases_noassign bs (fun st hs => ih st hs (assignsL_iff.mp ha st hs)) _ _ _ h1]
    · simp only [ok_inj] at h; exact h.symm
  | block n ss ih =>
    intro ha p r h
    simp only [Stmt.assigns] at ha
    simp only [TEnv.visit, bind_ok, ok_inj] at h
    obtain ⟨r1, h1, rfl⟩ := h
    rw [key ss (fun st hs => ih st hs (assignsL_iff.mp ha st hs)) _ _ h1]
  | fors a b c d e s _ => intro _ p r h; simp only [TEnv.visit, ok_inj] at h; exact h.symm
  | whiles c s _ => intro _ p r h; simp only [TEnv.visit, ok_inj] at h; exact h.symm

/-- The one assignment of a signal. -/
theorem bindlist_one (hm : s.AtModule mod) {b : Bind} (hx : s.getBindlist x = [b]) : ∃ i, s.binds.get? x = some [i] ∧ s.objs[i]? = some b := by
  cases e : s.binds.get? x with
  | none => simp [BV.getBindlist, e, BV.deref] at hx
  | some ids =>
    have ho := hm.objs x ids e
    simp only [BV.getBindlist, e, Option.getD_some, BV.deref] at hx
    cases ids with
    | nil => simp at hx
    | cons i ids =>
      obtain ⟨bi, hbi, -⟩ := ho i (by simp)
      simp only [List.filterMap_cons, hbi] at hx
      cases ids with
      | nil =>
        simp only [List.filterMap_nil, List.cons.injEq, and_true] at hx
        exact ⟨i, rfl, by rw [hbi, hx]⟩
      | cons j ids =>
        obtain ⟨bj, hbj, -⟩ := ho j (by simp)
        simp [hbj] at hx

/-- **C58** (partial, as above) An always block that does not assign `x` keeps what the other blocks assign to it. -/
theorem C58_other_block_partial (s s' : BV) (mod x : ScopeChain) (ls : List Sens) (body : Stmt) (hm : s.AtModule mod) (b : Bind)
    (hx : s.getBindlist x = [b]) (hb : b.whole) (hp : body.plain (resOf s.terms mod) x = true)
    (ha : body.assigns (resOf s.terms mod) x = false) (h : s.visitAlways ls body = .ok s') :
    ∃ b', s'.getBindlist x = [b'] ∧ b'.whole ∧ b'.always = b.always ∧ b'.tree = b.tree := by
  obtain ⟨s1, info, l, hi, q1, q2, q3, q4, q5, q6, q7, s2, h2, rfl⟩ := always_sim hm h
  obtain ⟨i, hi1, hi2⟩ := bindlist_one hm hx
  have hw : s1.WF mod x ⟨info, fun a => a = b.always, True⟩ := by
    refine ⟨by rw [q1.terms]; exact hm.flat, by rw [q1.noreorder]; exact hm.nore, by rw [q2, q3]; exact hm.objs, ?_, fun _ => by rw [q2, hi1]; rfl⟩
    intro ids hids
    rw [q2, hi1] at hids
    cases hids
    exact ⟨i, b, rfl, by rw [q3]; exact hi2, hb, rfl⟩
  obtain ⟨w, ht⟩ := visit_sim s body hp (fun h => by rw [ha] at h; cases h) s1 s2 _ [] q1 q4 (q6 x _ _) hw h2
  have ht1 : s1.treeOf x = b.tree := by simp [BV.treeOf, BV.getBindlist, q2, hi1, BV.deref, q3, hi2]
  rw [ht1, q7 x] at ht
  have hT := congrArg Prod.fst (visit_noassign _ body ha _ _ ht)
  simp only at hT
  rcases getBindlist_x w.wf with ⟨-, h⟩ | ⟨i, b', h1, h3, h4, h5, h6⟩
  · have := w.wf.has trivial
    rw [h] at this
    cases this
  · refine ⟨b', h6, h4, h5, ?_⟩
    rw [← hT, BV.treeOf, h6]

end

end Pyv
