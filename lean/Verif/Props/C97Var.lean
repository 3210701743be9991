import Verif.Props.LoopVar
import Verif.Props.BaProps
/-
  C97: what the variable of a loop in an always block reads as.
-/
namespace Pyv

section
variable {K : BaEnv} {s s' s1 : BV} {c d : ScopeChain} {p : ExPath} {P : ScopeChain → Prop}

/-- A for loop was visited from `s` to `s'`: the variable was assigned its first value, and in the turns it reads as the value
that names the turn. -/
def LoopReading (cs : Str → Option Int) (i : Str) (e c q : Ex) (b : Stmt) (s s' : BV) : Prop :=
  (Stmt.fors (.ident [] i) e c (.ident [] i) q b).visit s = .ok s' ∧
  ∃ v s0 l s1 vs, s.Static e v ∧ s.Assigns (.ident [] i) e s0 ∧ s0.label "for".toList = .ok (l, s1) ∧ ForReads cs i b l c q v s1 vs s'

/-- The same, and the values are those of a loop of integers. -/
def LoopCounting (cs : Str → Option Int) (i : Str) (e c q : Ex) (b : Stmt) (v : Int) (vs : List Int) (s s' : BV) : Prop :=
  (Stmt.fors (.ident [] i) e c (.ident [] i) q b).visit s = .ok s' ∧
  (∃ s0 l s1, s.Static e v ∧ s.Assigns (.ident [] i) e s0 ∧ s0.label "for".toList = .ok (l, s1) ∧ ForReads cs i b l c q v s1 vs s') ∧ CountTurns cs i c q v vs

theorem loop_counting {cs : Str → Option Int} (hcs : s.ConstsAt K cs) (hK : K.OK) {b : Stmt} (hg : BaMove K P b.visit) {i : Str} {e q cd : Ex} {x : ScopeChain} (hx : K.res i = some x) (hX : K.X x)
    (hw : BaWF K s) (hf : BaFr K s c) (hc : BaChain K s.frames c []) (hcur : s.current = c)
    (h : (Stmt.fors (.ident [] i) e cd (.ident [] i) q b).visit s = .ok s') :
    LoopReading cs i e cd q b s s' ∧ (¬ P x → Counting cs i cd q → ∃ v vs, LoopCounting cs i e cd q b v vs s s') := by
  have h00 := h
  simp only [Stmt.visit, Stmt.visitFor] at h
  obtain ⟨v, hv, h⟩ := bind_ok.mp h
  obtain ⟨ai, ha, h⟩ := bind_ok.mp h
  obtain ⟨s0, h0, h⟩ := bind_ok.mp h
  obtain ⟨⟨l, s1⟩, h1, h⟩ := bind_ok.mp h
  simp only at h
  have h0 : s.Assigns (.ident [] i) e s0 := assigns_of ha h0
  obtain ⟨a1, g1, -, m1⟩ := move_ba (P := fun _ => True) hK hx hX trivial s s0 c [] hw hf hc hcur h0
  have hF := assign_fixed hw hf hK hc hcur hx hX (staticVal_static hv) h0
  obtain ⟨tl, fl, cl⟩ := label_tab h1
  have hF1 : s1.Fixed K c x v := by
    obtain ⟨rn, j, b, w, a1, a2, e1, e2, e3, e4, e5, e6, e7, e8⟩ := hF
    exact ⟨rn, j, b, w, a1, a2, by simpa only [BV.ent, fl] using e1, by rw [tl.objs]; exact e2, e3, e4, by rw [label_octx h1]; exact e5, e6, by rw [tl.terms]; exact e7, e8⟩
  have hcs1 : s1.ConstsAt K cs := by
    intro p n hp
    rw [tl.terms, label_octx h1]
    exact m1.consts g1.keeps.term hcs p n hp
  obtain ⟨vs, hvs, hct⟩ := forLoop_reads hK hg hx hX _ v s1 s' (tl.wf g1.keeps.wf) (BaFr.tab tl fl (g1.fr hf)) (by rw [fl]; exact g1.chain hc)
    (cl.trans (g1.cur.trans hcur)) hF1 hcs1 h
  exact ⟨⟨h00, v, s0, l, s1, vs, staticVal_static hv, h0, h1, hvs⟩,
    fun hP hC => ⟨v, vs, h00, ⟨s0, l, s1, staticVal_static hv, h0, h1, hvs⟩, hct hP hC⟩⟩

theorem loop_reading {cs : Str → Option Int} (hcs : s.ConstsAt K cs) (hK : K.OK) {b : Stmt} (hg : BaMove K P b.visit) {i : Str} {e q cd : Ex} {x : ScopeChain} (hx : K.res i = some x) (hX : K.X x)
    (hw : BaWF K s) (hf : BaFr K s c) (hc : BaChain K s.frames c []) (hcur : s.current = c)
    (h : (Stmt.fors (.ident [] i) e cd (.ident [] i) q b).visit s = .ok s') : LoopReading cs i e cd q b s s' :=
  (loop_counting hcs hK hg hx hX hw hf hc hcur h).1

theorem visitList_split : ∀ (pre : List Stmt) {st : Stmt} {post : List Stmt} {s s' : BV}, Stmt.visitList (pre ++ st :: post) s = .ok s' →
    ∃ s1 s2, Stmt.visitList pre s = .ok s1 ∧ st.visit s1 = .ok s2 ∧ Stmt.visitList post s2 = .ok s'
  | [], st, post, s, s', h => by
    simp only [List.nil_append, Stmt.visitList, bind_ok] at h
    obtain ⟨s2, h1, h2⟩ := h
    exact ⟨s, s2, by simp only [Stmt.visitList], h1, h2⟩
  | a :: pre, st, post, s, s', h => by
    simp only [List.cons_append, Stmt.visitList, bind_ok] at h
    obtain ⟨s1, h1, h2⟩ := h
    obtain ⟨t1, t2, k1, k2, k3⟩ := visitList_split pre h2
    exact ⟨t1, t2, by simp only [Stmt.visitList, h1, ok_bind, k1], k2, k3⟩

/-- The names of a module that an always block assigns, and those its conditions read: the assigned ones are declared, no
arrays, and not assigned elsewhere before; the others are declared and not assigned. -/
structure LoopNames (s : BV) (mod : ScopeChain) (Q : Str → Bool) (D : Str → Prop) : Prop where
  keys : ∀ n ids, s.binds.get? n = some ids → s.terms.has n = true
  assigned : ∀ n, D n → (∃ t, s.terms.get? (mod ++ [⟨n, .signal, none⟩]) = some t ∧ t.dims = none) ∧ s.binds.get? (mod ++ [⟨n, .signal, none⟩]) = none
  read : ∀ n, Q n = true → s.terms.has (mod ++ [⟨n, .signal, none⟩]) = true ∧ ¬ D n

/-- These names denote declared signals of the module that the block does not assign and that are constant. -/
def ConstNames (s : BV) (mod : ScopeChain) (D : Str → Prop) (cs : Str → Option Int) : Prop :=
  ∀ p n, cs p = some n → ¬ D p ∧ s.terms.has (mod ++ [⟨p, .signal, none⟩]) = true ∧
    ∃ w a1 a2, s.octx.consts.get? (mod ++ [⟨p, .signal, none⟩]) = some (.ev (.int n) w a1 a2)

theorem ConstNames.at {mod : ScopeChain} {D : Str → Prop} {cs : Str → Option Int} (h : ConstNames s mod D cs) (ht : s1.terms = s.terms) (ho : s1.octx = s.octx)
    (hm : K.mod = mod) (h0 : K.s0.terms = s.terms) (hX : ∀ x, K.X x → ∃ n, D n ∧ x = mod ++ [⟨n, .signal, none⟩]) : s1.ConstsAt K cs := by
  intro p n hp
  obtain ⟨h1, h2, w, a1, a2, h3⟩ := h p n hp
  refine ⟨mod ++ [⟨p, .signal, none⟩], w, a1, a2, ?_, ?_, by rw [ht]; exact h2, by rw [ho]; exact h3⟩
  · simp only [BaEnv.res, resOf, hm, h0, h2, if_true]
  · intro hx
    obtain ⟨m, hm, e⟩ := hX _ hx
    have := List.append_cancel_left e
    simp only [List.cons.injEq, ScopeLabel.mk.injEq, and_true] at this
    exact h1 (this ▸ hm)

theorem loopNames_env {mod : ScopeChain} {Q : Str → Bool} {D : Str → Prop} (h : LoopNames s mod Q D) (hm : s.AtModule mod) (info : AlwaysInfo) (l : ScopeLabel) :
    let K : BaEnv := ⟨s, mod, mod ++ [l], fun x => ∃ n, D n ∧ x = mod ++ [⟨n, .signal, none⟩], info, Q⟩
    K.OK ∧ BaWF K s ∧ (∀ n, D n → ∃ x, K.res n = some x ∧ K.X x) := by
  have hres : ∀ n, s.terms.has (mod ++ [⟨n, .signal, none⟩]) = true → resOf s.terms mod n = some (mod ++ [⟨n, .signal, none⟩]) := by
    intro n hn
    simp only [resOf, hn, if_true]
  refine ⟨⟨?_, ?_⟩, ⟨fun _ _ h => h, hm.flat, hm.nore, rfl, h.keys, hm.objs, ?_⟩, ?_⟩
  · rintro x ⟨n, hn, rfl⟩
    exact (h.assigned n hn).1
  · intro n hn
    obtain ⟨h1, h2⟩ := h.read n hn
    refine ⟨_, hres n h1, ?_⟩
    rintro ⟨m, hm, e⟩
    have := List.append_cancel_left e
    simp only [List.cons.injEq, ScopeLabel.mk.injEq, and_true] at this
    exact h2 (this ▸ hm)
  · rintro x ids ⟨n, hn, rfl⟩ hb
    rw [(h.assigned n hn).2] at hb; cases hb
  · intro n hn
    obtain ⟨⟨t, ht, -⟩, -⟩ := h.assigned n hn
    exact ⟨_, hres n (by rw [Dict.has_eq, ht]; rfl), n, hn, rfl⟩

/-- **C97 (partial)**: in an always block that is a for loop, whose body makes assignments to whole scalars in ifs, blocks and
loops, the loop variable reads as the value that names the turn: in front of the condition, and at the beginning of the body. -/
theorem C97_variable_partial (s s' : BV) (mod : ScopeChain) (ls : List Sens) (i : Str) (e c q : Ex) (b : Stmt) (Q : Str → Bool) (D : Str → Prop)
    (hm : s.AtModule mod) (hn : LoopNames s mod Q D) (cs : Str → Option Int) (hcs : ConstNames s mod D cs) (hi : D i) (hb : b.LoopBody (fun n => Q n = true) D)
    (h : s.visitAlways ls (.fors (.ident [] i) e c (.ident [] i) q b) = .ok s') :
    ∃ t t' l, t.terms = s.terms ∧ t.current = mod ++ [l] ∧ LoopReading cs i e c q b t t' ∧ s' = { t' with current := mod } := by
  obtain ⟨s1, info, l, -, ⟨tab, oc⟩, hcur, hch, hent, s2, h2, rfl⟩ := always_start hm h
  obtain ⟨hK, hw, hD⟩ := loopNames_env hn hm info l
  obtain ⟨x, hx, hX⟩ := hD i hi
  refine ⟨s1, s2, l, tab.terms, hcur, loop_reading (hcs.at tab.terms oc rfl rfl (fun _ h => h)) hK (body_move (P := fun _ => True) hK (fun n hn => let ⟨x, h1, h2⟩ := hD n hn; ⟨x, h1, h2, trivial⟩) hb) hx hX (tab.wf hw) ?_ (hch _ _) hcur h2, rfl⟩
  intro c' h1 h2 x i hi
  have : c' = mod ++ [l] := h2.eq_of_length (Nat.le_antisymm h2.length_le h1.length_le)
  subst this
  rw [hent] at hi; cases hi

/-- A statement in the block of an always block, behind statements that only assign whole signals. -/
theorem always_block {mod : ScopeChain} {ls : List Sens} {Q : Str → Bool} {D : Str → Prop} {name : Option Str} {pre post : List Stmt} {st : Stmt}
    {cs : Str → Option Int} (hcs : ConstNames s mod D cs) (hm : s.AtModule mod) (hn : LoopNames s mod Q D) (hpre : ∀ st ∈ pre, st.LoopBody (fun n => Q n = true) D)
    (h : s.visitAlways ls (.block name (pre ++ st :: post)) = .ok s') :
    ∃ K : BaEnv, K.OK ∧ (∀ n, D n → ∃ x, K.res n = some x ∧ K.X x) ∧ (fun n => K.Q n = true) = (fun n => Q n = true) ∧ ∃ t0 t t' t1 ls, t.ConstsAt K cs ∧ BaWF K t ∧ BaFr K t (mod ++ ls) ∧
      BaChain K t.frames (mod ++ ls) [] ∧ t.current = mod ++ ls ∧ Stmt.visitList pre t0 = .ok t ∧ t0.terms = s.terms ∧ t0.current = mod ++ ls ∧ ls.length = 2 ∧
      st.visit t = .ok t' ∧ Stmt.visitList post t' = .ok t1 := by
  obtain ⟨s1, info, l, -, ⟨tab, oc⟩, hcur, hch, hent, s2, h2, rfl⟩ := always_start hm h
  obtain ⟨hK, hw, hD⟩ := loopNames_env hn hm info l
  have hch := hch (fun x => ∃ n, D n ∧ x = mod ++ [⟨n, .signal, none⟩]) Q
  have hcs1 : s1.ConstsAt ⟨s, mod, mod ++ [l], fun x => ∃ n, D n ∧ x = mod ++ [⟨n, .signal, none⟩], info, Q⟩ cs :=
    hcs.at tab.terms oc rfl rfl (fun _ h => h)
  have hroot : BaEnv.root ⟨s, mod, mod ++ [l], fun x => ∃ n, D n ∧ x = mod ++ [⟨n, .signal, none⟩], info, Q⟩ = mod ++ [l] := rfl
  have hQ : (fun n => BaEnv.Q ⟨s, mod, mod ++ [l], fun x => ∃ n, D n ∧ x = mod ++ [⟨n, .signal, none⟩], info, Q⟩ n = true) = (fun n => Q n = true) := rfl
  have hpre : ∀ st ∈ pre, st.LoopBody (fun n => BaEnv.Q ⟨s, mod, mod ++ [l], fun x => ∃ n, D n ∧ x = mod ++ [⟨n, .signal, none⟩], info, Q⟩ n = true) D := hpre
  generalize (⟨s, mod, mod ++ [l], fun x => ∃ n, D n ∧ x = mod ++ [⟨n, .signal, none⟩], info, Q⟩ : BaEnv) = K at hK hw hD hch hroot hQ hpre hcs1
  have hw1 := tab.wf hw
  have hf1 : BaFr K s1 (mod ++ [l]) := by
    intro c' h1 h2 x i hi
    rw [hroot] at h1
    have : c' = mod ++ [l] := h2.eq_of_length (Nat.le_antisymm h2.length_le h1.length_le)
    subst this
    rw [hent] at hi; cases hi
  simp only [Stmt.visit, Stmt.visitBlock, bind_ok] at h2
  obtain ⟨⟨bl, sl⟩, hl, u1, k1, u2, k2, -⟩ := h2
  have hlab : (TabEq s1 sl ∧ sl.octx = s1.octx) ∧ sl.frames = s1.frames ∧ sl.current = s1.current := by
    cases name with
    | some n =>
      simp only [BV.blockLabel, ok_inj, Prod.mk.injEq] at hl
      obtain ⟨-, rfl⟩ := hl
      exact ⟨⟨.refl, rfl⟩, rfl, rfl⟩
    | none => exact ⟨⟨(label_tab hl).1, label_octx hl⟩, (label_tab hl).2⟩
  obtain ⟨⟨tl, ol⟩, fl, cl⟩ := hlab
  obtain ⟨o, -⟩ := enter_ba (by rw [fl]; exact hch) (cl.trans hcur) (fun _ => ⟨by simp, by simp⟩) (fun a h => by cases h) k1
  simp only [pathStep, List.append_nil] at o
  obtain ⟨t, t', m1, m2, m3⟩ := visitList_split pre k2
  have hwo := o.tab.wf (tl.wf hw1)
  have hfo := o.fr (BaFr.tab tl fl hf1)
  obtain ⟨asg, g, -, mk⟩ := move_list pre (fun st hs => body_move (P := fun _ => True) hK (fun n hn => let ⟨x, h1, h2⟩ := hD n hn; ⟨x, h1, h2, trivial⟩) (hpre st hs)) u1 t _ [] hwo hfo o.inner o.cur m1
  have e : mod ++ [l] ++ [⟨bl, .block, none⟩] = mod ++ [l, ⟨bl, .block, none⟩] := by simp
  have c2 := g.cur.trans o.cur
  have f2 := g.fr hfo
  have h3 := g.chain o.inner
  rw [e] at c2 f2 h3
  have hcu : u1.ConstsAt K cs := by
    intro p n hp
    rw [o.tab.terms, tl.terms, enter_octx k1, ol]
    exact hcs1 p n hp
  refine ⟨K, hK, hD, hQ, u1, t, t', u2, [l, ⟨bl, .block, none⟩], mk.consts g.keeps.term hcu, g.keeps.wf, f2, h3, c2, m1, ?_, ?_, rfl, m2, m3⟩
  · rw [o.tab.terms, tl.terms, tab.terms]
  · rw [o.cur, e]

/-- **C97 (partial)**: the same for a for loop in the block of an always block, behind statements of the same kind. -/
theorem C97_variable_block_partial (s s' : BV) (mod : ScopeChain) (ls : List Sens) (i : Str) (e c q : Ex) (b : Stmt) (Q : Str → Bool) (D : Str → Prop)
    (name : Option Str) (pre post : List Stmt) (hm : s.AtModule mod) (hn : LoopNames s mod Q D) (cs : Str → Option Int) (hcs : ConstNames s mod D cs) (hi : D i) (hb : b.LoopBody (fun n => Q n = true) D)
    (hpre : ∀ st ∈ pre, st.LoopBody (fun n => Q n = true) D)
    (h : s.visitAlways ls (.block name (pre ++ .fors (.ident [] i) e c (.ident [] i) q b :: post)) = .ok s') :
    ∃ t0 t t' t1 ls, Stmt.visitList pre t0 = .ok t ∧ t0.terms = s.terms ∧ t0.current = mod ++ ls ∧ ls.length = 2 ∧ LoopReading cs i e c q b t t' ∧
      Stmt.visitList post t' = .ok t1 := by
  obtain ⟨K, hK, hD, hQ, t0, t, t', t1, ls, hcs1, hw, hf, hc, hcur, m1, m2, m3, m4, m5, m6⟩ := always_block hcs hm hn hpre h
  obtain ⟨x, hx, hX⟩ := hD i hi
  rw [← hQ] at hb
  exact ⟨t0, t, t', t1, ls, m1, m2, m3, m4, loop_reading hcs1 hK (body_move (P := fun _ => True) hK (fun n hn => let ⟨x, h1, h2⟩ := hD n hn; ⟨x, h1, h2, trivial⟩) hb)
    hx hX hw hf hc hcur m5, m6⟩

theorem res_inj {n m : Str} {x : ScopeChain} (h1 : K.res n = some x) (h2 : K.res m = some x) : n = m := by
  have e : ∀ {n}, K.res n = some x → x = K.mod ++ [⟨n, .signal, none⟩] := by
    intro n hx
    simp only [BaEnv.res, resOf] at hx
    split at hx
    · cases hx; rfl
    · cases hx
  have := List.append_cancel_left ((e h1).symm.trans (e h2))
  simp only [List.cons.injEq, ScopeLabel.mk.injEq, and_true] at this
  exact this

/-- **C97 (partial)**: an always block that is a for loop over `i`, whose condition and step are made of `i` and literals, and whose
body makes assignments to other whole scalars in ifs, blocks and loops, makes the turns of the loop over integers: its turns
are named by, and `i` reads as, the values that the loop gives to `i`. -/
theorem C97_count_partial (s s' : BV) (mod : ScopeChain) (ls : List Sens) (i : Str) (e c q : Ex) (b : Stmt) (Q : Str → Bool) (D : Str → Prop)
    (hm : s.AtModule mod) (hn : LoopNames s mod Q D) (cs : Str → Option Int) (hcs : ConstNames s mod D cs) (hi : D i) (hb : b.LoopBody (fun n => Q n = true) (fun n => D n ∧ n ≠ i)) (hC : Counting cs i c q)
    (h : s.visitAlways ls (.fors (.ident [] i) e c (.ident [] i) q b) = .ok s') :
    ∃ t t' l v vs, t.terms = s.terms ∧ t.current = mod ++ [l] ∧ LoopCounting cs i e c q b v vs t t' ∧ s' = { t' with current := mod } := by
  obtain ⟨s1, info, l, -, ⟨tab, oc⟩, hcur, hch, hent, s2, h2, rfl⟩ := always_start hm h
  obtain ⟨hK, hw, hD⟩ := loopNames_env hn hm info l
  obtain ⟨x, hx, hX⟩ := hD i hi
  obtain ⟨v, vs, hvs⟩ := (loop_counting (P := fun y => y ≠ x) (hcs.at tab.terms oc rfl rfl (fun _ h => h)) hK (body_move hK (fun n hn => by
    obtain ⟨y, h1, h2⟩ := hD n hn.1
    exact ⟨y, h1, h2, fun e => hn.2 (res_inj h1 (e ▸ hx))⟩) hb) hx hX (tab.wf hw) (by
      intro c' h1 h2 x i hi
      have : c' = mod ++ [l] := h2.eq_of_length (Nat.le_antisymm h2.length_le h1.length_le)
      subst this
      rw [hent] at hi; cases hi) (hch _ _) hcur h2).2 (fun h => h rfl) hC
  exact ⟨s1, s2, l, v, vs, tab.terms, hcur, hvs, rfl⟩

/-- **C97 (partial)**: the same for a for loop in the block of an always block, behind statements of the same kind (which may assign
`i`). -/
theorem C97_count_block_partial (s s' : BV) (mod : ScopeChain) (ls : List Sens) (i : Str) (e c q : Ex) (b : Stmt) (Q : Str → Bool) (D : Str → Prop)
    (name : Option Str) (pre post : List Stmt) (hm : s.AtModule mod) (hn : LoopNames s mod Q D) (cs : Str → Option Int) (hcs : ConstNames s mod D cs) (hi : D i)
    (hb : b.LoopBody (fun n => Q n = true) (fun n => D n ∧ n ≠ i)) (hC : Counting cs i c q) (hpre : ∀ st ∈ pre, st.LoopBody (fun n => Q n = true) D)
    (h : s.visitAlways ls (.block name (pre ++ .fors (.ident [] i) e c (.ident [] i) q b :: post)) = .ok s') :
    ∃ t0 t t' t1 ls v vs, Stmt.visitList pre t0 = .ok t ∧ t0.terms = s.terms ∧ t0.current = mod ++ ls ∧ ls.length = 2 ∧
      LoopCounting cs i e c q b v vs t t' ∧ Stmt.visitList post t' = .ok t1 := by
  obtain ⟨K, hK, hD, hQ, t0, t, t', t1, ls, hcs1, hw, hf, hc, hcur, m1, m2, m3, m4, m5, m6⟩ := always_block hcs hm hn hpre h
  obtain ⟨x, hx, hX⟩ := hD i hi
  rw [← hQ] at hb
  obtain ⟨v, vs, hvs⟩ := (loop_counting (P := fun y => y ≠ x) hcs1 hK (body_move hK (fun n hn => by
    obtain ⟨y, h1, h2⟩ := hD n hn.1
    exact ⟨y, h1, h2, fun e => hn.2 (res_inj h1 (e ▸ hx))⟩) hb) hx hX hw hf hc hcur m5).2 (fun h => h rfl) hC
  exact ⟨t0, t, t', t1, ls, v, vs, m1, m2, m3, m4, hvs, m6⟩

/-- **C97 (partial)**: the turns of `for (i = a; i < n; i = i + k) b`, also with another comparison or with `i - k`, are named by a, a + k,
a + 2k, … as long as the comparison is true; `a` is a literal, `n` and `k` are made of constants and literals. -/
theorem C97_range_partial (s s' : BV) (mod : ScopeChain) (ls : List Sens) (i as : Str) (o : Op) (cmp : Int → Int → Bool) (ne q : Ex) (a n k : Int) (cs : Str → Option Int) (b : Stmt) (Q : Str → Bool) (D : Str → Prop)
    (ha : hasXZ as = false ∧ intConstEval as = .ok a) (hN : ∀ v, CountEx cs i v ne n) (ho : loopCmp o = some cmp) (hk : LoopStep cs i q k)
    (hm : s.AtModule mod) (hn : LoopNames s mod Q D) (hcs : ConstNames s mod D cs) (hi : D i) (hb : b.LoopBody (fun n => Q n = true) (fun n => D n ∧ n ≠ i))
    (h : s.visitAlways ls (.fors (.ident [] i) (.intc as) (.bin o (.ident [] i) ne) (.ident [] i) q b) = .ok s') :
    ∃ t t' l vs, t.current = mod ++ [l] ∧
      LoopCounting cs i (.intc as) (.bin o (.ident [] i) ne) q b a vs t t' ∧ s' = { t' with current := mod } ∧
      (∀ j < vs.length, vs[j]? = some (a + k * j)) ∧ (∀ x ∈ vs, cmp x n = true) ∧ cmp (a + k * vs.length) n = false := by
  obtain ⟨s1, info, l, -, ⟨tab, oc⟩, hcur, hch, hent, s2, h2, rfl⟩ := always_start hm h
  obtain ⟨hK, hw, hD⟩ := loopNames_env hn hm info l
  obtain ⟨x, hx, hX⟩ := hD i hi
  obtain ⟨v, vs, hvs⟩ := (loop_counting (P := fun y => y ≠ x) (hcs.at tab.terms oc rfl rfl (fun _ h => h)) hK (body_move hK (fun n hn => by
    obtain ⟨y, h1, h2⟩ := hD n hn.1
    exact ⟨y, h1, h2, fun e => hn.2 (res_inj h1 (e ▸ hx))⟩) hb) hx hX (tab.wf hw) (by
      intro c' h1 h2 x i hi
      have : c' = mod ++ [l] := h2.eq_of_length (Nat.le_antisymm h2.length_le h1.length_le)
      subst this
      rw [hent] at hi; cases hi) (hch _ _) hcur h2).2 (fun h => h rfl)
    (fun v => ⟨⟨_, .cmp ho .var (hN v)⟩, _, hk.count v⟩)
  have hva : v = a := static_lit (tab.wf hw).nore ha.1 ha.2 hvs.2.1.choose_spec.choose_spec.choose_spec.1
  subst hva
  have hci : cs i = none := by
    cases h : cs i with
    | none => rfl
    | some m => exact absurd hi (hcs i m h).1
  exact ⟨s1, s2, l, vs, hcur, hvs, rfl, count_steps hci ho hN hk hvs.2.2⟩

end

/-! ### A loop -/

/-- The module of C58, with at most ten turns. -/
def c97m : BV := { c58s with loops := 10 }

/-- `for (y = 0; y < 3; y = y + 1) begin if (a) x = y; end` -/
def c97body : Stmt := .block none [.ifs (c58i "a") (.ba (c58i "x") (c58i "y")) .skip]

/-- The assigned names. -/
def c97D (n : Str) : Prop := n = "x".toList ∨ n = "y".toList

theorem c97m_module : c97m.AtModule c58m :=
  ⟨⟨c58s_module.ne, c58s_module.frame, c58s_module.flat, c58s_module.nore⟩, c58s_module.current, c58s_module.objs⟩

theorem c97m_names : LoopNames c97m c58m (fun n => n = "a".toList) c97D where
  keys := by intro n ids h; cases h
  assigned := by
    rintro n (rfl | rfl)
    · exact ⟨⟨_, rfl, rfl⟩, rfl⟩
    · exact ⟨⟨_, rfl, rfl⟩, rfl⟩
  read := by
    intro n hn
    simp only [decide_eq_true_eq] at hn
    subst hn
    exact ⟨by decide +kernel, by unfold c97D; decide⟩

theorem c97none : ConstNames c97m c58m c97D (fun _ => none) := fun _ _ h => by cases h

theorem c97body_plain : c97body.LoopBody (fun n => decide (n = "a".toList) = true) c97D := by
  refine .block ?_
  intro st hs
  simp only [List.mem_singleton] at hs
  subst hs
  exact .ifs rfl rfl (fun q hq => hq _ (by decide)) (.ba (.inl rfl)) .skip

theorem c97body_other : c97body.LoopBody (fun n => decide (n = "a".toList) = true) (fun n => c97D n ∧ n ≠ "y".toList) := by
  refine .block ?_
  intro st hs
  simp only [List.mem_singleton] at hs
  subst hs
  exact .ifs rfl rfl (fun q hq => hq _ (by decide)) (.ba ⟨.inl rfl, by decide⟩) .skip

/-- A condition and a step made of the variable and literals. -/
example : Counting (fun _ => none) "y".toList (.bin .lessThan (c58i "y") (.intc ['3'])) (.bin .plus (c58i "y") (.intc ['1'])) :=
  fun _ => ⟨⟨_, .lt .var (.lit (by decide) (n := 3) (by decide))⟩, _, .plus .var (.lit (by decide) (n := 1) (by decide))⟩

/-- The three turns. -/
example : (c97m.visitAlways c58clk (.fors (c58i "y") (.intc ['0']) (.bin .lessThan (c58i "y") (.intc ['3'])) (c58i "y")
    (.bin .plus (c58i "y") (.intc ['1'])) c97body)).toOption.map (fun s => (s.report.1.filterMap id)) = some [0, 1, 2] := by decide +kernel

/-- The theorem applies to it. -/
example : ∃ s', c97m.visitAlways c58clk (.fors (c58i "y") (.intc ['0']) (.bin .lessThan (c58i "y") (.intc ['3'])) (c58i "y")
    (.bin .plus (c58i "y") (.intc ['1'])) c97body) = .ok s' ∧
    ∃ t t' l, t.terms = c97m.terms ∧ t.current = c58m ++ [l] ∧ LoopReading (fun _ => none) "y".toList (.intc ['0']) (.bin .lessThan (c58i "y") (.intc ['3']))
      (.bin .plus (c58i "y") (.intc ['1'])) c97body t t' ∧ s' = { t' with current := c58m } := by
  have h6 : (c97m.visitAlways c58clk (.fors (c58i "y") (.intc ['0']) (.bin .lessThan (c58i "y") (.intc ['3'])) (c58i "y")
    (.bin .plus (c58i "y") (.intc ['1'])) c97body)).toOption.isSome = true := by decide +kernel
  cases h : c97m.visitAlways c58clk (.fors (c58i "y") (.intc ['0']) (.bin .lessThan (c58i "y") (.intc ['3'])) (c58i "y")
    (.bin .plus (c58i "y") (.intc ['1'])) c97body) with
  | error e => rw [h] at h6; cases h6
  | ok s' =>
    exact ⟨s', rfl, C97_variable_partial c97m s' c58m c58clk "y".toList _ _ _ c97body (fun n => n = "a".toList) c97D c97m_module c97m_names _ c97none (.inr rfl) c97body_plain h⟩

/-- The same module, where `b` is constant. -/
def c97k : BV := { c97m with octx := { c97m.octx with consts := [(c58m ++ [⟨"b".toList, .signal, none⟩], .ev (.int 3) (some 32) false false)] } }

/-- The constant. -/
def c97cs (p : Str) : Option Int := if p = "b".toList then some 3 else none

theorem c97k_module : c97k.AtModule c58m := ⟨⟨c97m_module.ne, c97m_module.frame, c97m_module.flat, c97m_module.nore⟩, c97m_module.current, c97m_module.objs⟩

theorem c97k_names : LoopNames c97k c58m (fun n => n = "a".toList) c97D := ⟨c97m_names.keys, c97m_names.assigned, c97m_names.read⟩

theorem c97k_const : ConstNames c97k c58m c97D c97cs := by
  intro p n h
  unfold c97cs at h
  split at h
  · rename_i hp
    subst hp
    cases h
    exact ⟨by unfold c97D; decide, by decide +kernel, _, _, _, rfl⟩
  · cases h

/-- `for (y = 0; y < b; y = y + 1)`, where `b` is 3: the turns of 0, 1, 2. -/
example : ∃ s', c97k.visitAlways c58clk (.fors (c58i "y") (.intc ['0']) (.bin .lessThan (c58i "y") (c58i "b")) (c58i "y")
    (.bin .plus (c58i "y") (.intc ['1'])) c97body) = .ok s' ∧
    ∃ t t' vs, LoopCounting c97cs "y".toList (.intc ['0']) (.bin .lessThan (c58i "y") (c58i "b")) (.bin .plus (c58i "y") (.intc ['1'])) c97body 0 vs t t' ∧
      vs.length = 3 := by
  have h6 : (c97k.visitAlways c58clk (.fors (c58i "y") (.intc ['0']) (.bin .lessThan (c58i "y") (c58i "b")) (c58i "y")
    (.bin .plus (c58i "y") (.intc ['1'])) c97body)).toOption.isSome = true := by decide +kernel
  cases h : c97k.visitAlways c58clk (.fors (c58i "y") (.intc ['0']) (.bin .lessThan (c58i "y") (c58i "b")) (c58i "y")
    (.bin .plus (c58i "y") (.intc ['1'])) c97body) with
  | error e => rw [h] at h6; cases h6
  | ok s' =>
    obtain ⟨t, t', l, vs, -, h1, -, h2, h3, h4⟩ := C97_range_partial c97k s' c58m c58clk "y".toList ['0'] .lessThan _ (c58i "b") _ 0 3 1 c97cs c97body (fun n => n = "a".toList) c97D
      ⟨by decide, by decide⟩ (fun _ => .con rfl) rfl (.up (fun _ => .lit (by decide) (by decide))) c97k_module c97k_names c97k_const (.inr rfl) c97body_other h
    refine ⟨s', rfl, t, t', vs, h1, ?_⟩
    simp only [decide_eq_false_iff_not] at h4
    by_contra hne
    have : 3 < vs.length := by omega
    have h5 := h2 3 this
    have h6 := h3 _ (List.mem_of_getElem? h5)
    simp only [Nat.cast_ofNat, decide_eq_true_eq] at h6
    omega

/-- A loop that counts down: `for (y = 3; y >= 0; y = y - 2)`. -/
example : LoopStep (fun _ => none) "y".toList (.bin .minus (c58i "y") (.intc ['2'])) (-2) ∧
    CountTurns (fun _ => none) "y".toList (.bin .greaterEq (c58i "y") (.intc ['0'])) (.bin .minus (c58i "y") (.intc ['2'])) 3 [3, 1] := by
  have h2 : ∀ v, CountEx (fun _ => none) "y".toList v (.intc ['2']) 2 := fun _ => .lit (by decide) (by decide)
  have h0 : ∀ v, CountEx (fun _ => none) "y".toList v (.intc ['0']) 0 := fun _ => .lit (by decide) (by decide)
  exact ⟨.down h2, .turn (.ge .var (h0 _)) (by decide) (.minus .var (h2 _)) (.turn (.ge .var (h0 _)) (by decide) (.minus .var (h2 _))
    (.stop (.ge .var (h0 _)) (by decide)))⟩

/-- The same behind `x = 0;` in a block. -/
example : ∃ s', c97m.visitAlways c58clk (.block none ([c74a "x" "0"] ++ .fors (c58i "y") (.intc ['0']) (.bin .lessThan (c58i "y") (.intc ['3'])) (c58i "y")
    (.bin .plus (c58i "y") (.intc ['1'])) c97body :: [])) = .ok s' ∧ ∃ t t', LoopReading (fun _ => none) "y".toList (.intc ['0']) (.bin .lessThan (c58i "y") (.intc ['3']))
      (.bin .plus (c58i "y") (.intc ['1'])) c97body t t' := by
  have h6 : (c97m.visitAlways c58clk (.block none ([c74a "x" "0"] ++ .fors (c58i "y") (.intc ['0']) (.bin .lessThan (c58i "y") (.intc ['3'])) (c58i "y")
    (.bin .plus (c58i "y") (.intc ['1'])) c97body :: []))).toOption.isSome = true := by decide +kernel
  cases h : c97m.visitAlways c58clk (.block none ([c74a "x" "0"] ++ .fors (c58i "y") (.intc ['0']) (.bin .lessThan (c58i "y") (.intc ['3'])) (c58i "y")
    (.bin .plus (c58i "y") (.intc ['1'])) c97body :: [])) with
  | error e => rw [h] at h6; cases h6
  | ok s' =>
    obtain ⟨_, t, t', _, _, -, -, -, -, k, -⟩ := C97_variable_block_partial c97m s' c58m c58clk "y".toList _ _ _ c97body (fun n => n = "a".toList) c97D none
      [c74a "x" "0"] [] c97m_module c97m_names _ c97none (.inr rfl) c97body_plain (by intro st hs; simp only [List.mem_singleton] at hs; subst hs; exact .ba (.inl rfl)) h
    exact ⟨s', rfl, t, t', k⟩

/-- And it counts: the same block, with `y = 5;` in front of the loop. -/
example : ∃ s', c97m.visitAlways c58clk (.block none ([c74a "y" "5"] ++ .fors (c58i "y") (.intc ['0']) (.bin .lessThan (c58i "y") (.intc ['3'])) (c58i "y")
    (.bin .plus (c58i "y") (.intc ['1'])) c97body :: [])) = .ok s' ∧ ∃ t t' v vs, LoopCounting (fun _ => none) "y".toList (.intc ['0'])
      (.bin .lessThan (c58i "y") (.intc ['3'])) (.bin .plus (c58i "y") (.intc ['1'])) c97body v vs t t' := by
  have h6 : (c97m.visitAlways c58clk (.block none ([c74a "y" "5"] ++ .fors (c58i "y") (.intc ['0']) (.bin .lessThan (c58i "y") (.intc ['3'])) (c58i "y")
    (.bin .plus (c58i "y") (.intc ['1'])) c97body :: []))).toOption.isSome = true := by decide +kernel
  cases h : c97m.visitAlways c58clk (.block none ([c74a "y" "5"] ++ .fors (c58i "y") (.intc ['0']) (.bin .lessThan (c58i "y") (.intc ['3'])) (c58i "y")
    (.bin .plus (c58i "y") (.intc ['1'])) c97body :: [])) with
  | error e => rw [h] at h6; cases h6
  | ok s' =>
    obtain ⟨_, t, t', _, _, v, vs, -, -, -, -, k, -⟩ := C97_count_block_partial c97m s' c58m c58clk "y".toList _ _ _ c97body (fun n => n = "a".toList) c97D none
      [c74a "y" "5"] [] c97m_module c97m_names _ c97none (.inr rfl) c97body_other
      (fun _ => ⟨⟨_, .lt .var (.lit (by decide) (n := 3) (by decide))⟩, _, .plus .var (.lit (by decide) (n := 1) (by decide))⟩)
      (by intro st hs; simp only [List.mem_singleton] at hs; subst hs; exact .ba (.inr rfl)) h
    exact ⟨s', rfl, t, t', v, vs, k⟩

/-- In the state of C97, `i` has no static value in front of `i = 2`, and the value 2 behind it. -/
example : c97s.staticVal (c58i "i") = .error .attribute ∧
    (match (Stmt.ba (c58i "i") (.intc ['2'])).visit c97s with | .ok s => s.staticVal (c58i "i") | .error e => .error e) = .ok 2 := by decide +kernel

end Pyv
