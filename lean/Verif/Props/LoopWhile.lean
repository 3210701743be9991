import Verif.Props.C97Var
/-
  C97: while loops that count.
-/
namespace Pyv

section
variable {K : BaEnv} {s s' s1 s2 : BV} {c d : ScopeChain} {p q : ExPath} {x : ScopeChain} {v w : Int} {cs : Str → Option Int}

/-- The innermost known assignment of the signal is this number. -/
def BV.Near (s : BV) (K : BaEnv) (c x : ScopeChain) (v : Int) : Prop :=
  ∃ c0, s.Fixed K c0 x v ∧ K.root <+: c0 ∧ c0 <+: c ∧ ∀ d, c0 <+: d → d <+: c → d ≠ c0 → s.ent d x = none

/-- The tree of the signal is an intermediate signal with this value. -/
def BV.Holds (s : BV) (K : BaEnv) (x : ScopeChain) (v : Int) : Prop :=
  ∃ rn w a1 a2, s.treeOf x = .term rn ∧ s.octx.consts.get? rn = some (.ev (.int v) w a1 a2) ∧ s.terms.has rn = true ∧ ¬ K.X rn

theorem Fixed.near (hc : BaChain K s.frames c p) (h : s.Fixed K c x v) : s.Near K c x v :=
  ⟨c, h, hc.under, List.prefix_refl _, fun _ h1 h2 h3 => absurd (h2.eq_of_length (Nat.le_antisymm h2.length_le h1.length_le)) h3⟩

theorem Holds.fixed {asg : ScopeChain → Prop} (h : s'.Holds K x v) (g : BaStep K s s' c asg) (hx : asg x) : s'.Fixed K c x v := by
  obtain ⟨rn, w, a1, a2, h1, h2, h3, h4⟩ := h
  obtain ⟨j, b, k1, k2, k3, k4, k5, -⟩ := g.ent1 x hx
  exact ⟨rn, j, b, w, a1, a2, k1, k2, k4, by rw [k5, h1], h2, k3, h3, h4⟩

theorem Near.inside (h : s.Near K c x v) (o : Opened K s s1 c d p q) (ho : s1.octx = s.octx) : s1.Near K d x v := by
  obtain ⟨c0, ⟨rn, j, b, w, a1, a2, e1, e2, e3, e4, e5, e6, e7, e8⟩, h1, h2, h3⟩ := h
  obtain ⟨l, hd⟩ := o.below
  refine ⟨c0, ⟨rn, j, b, w, a1, a2, ?_, by rw [o.tab.objs]; exact e2, e3, e4, by rw [ho]; exact e5, e6, by rw [o.tab.terms]; exact e7, e8⟩, h1, ?_, ?_⟩
  · simpa only [BV.ent, o.prefixFrm h2] using e1
  · rw [hd]; exact h2.trans (List.prefix_append _ _)
  · intro d' k1 k2 k3
    rw [hd] at k2
    rcases List.prefix_concat_iff.mp k2 with rfl | k2
    · rw [← hd]; exact o.ent x
    · simpa only [BV.ent, o.prefixFrm k2] using h3 d' k1 k2 k3

theorem Near.step {asg : ScopeChain → Prop} (h : s.Near K c x v) (g : BaStep K s s' c asg) (hk : KeepC K s s') (hx : ¬ asg x) : s'.Near K c x v := by
  obtain ⟨c0, ⟨rn, j, b, w, a1, a2, e1, e2, e3, e4, e5, e6, e7, e8⟩, h1, h2, h3⟩ := h
  have hent : ∀ d, d <+: c → s'.ent d x = s.ent d x := by
    intro d hd
    by_cases e : c <+: d
    · have := e.eq_of_length (Nat.le_antisymm e.length_le hd.length_le)
      subst this
      exact g.ent0 x hx
    · simp only [BV.ent, g.frm d e]
  obtain ⟨t, k1, k2⟩ := g.keeps.obj j b e2
  have : t = b.tree := k2.resolve_right (fun h => hx (e6 ▸ h.1))
  subst this
  refine ⟨c0, ⟨rn, j, b, w, a1, a2, by rw [hent _ h2]; exact e1, k1, e3, e4, by rw [hk rn e7 e8]; exact e5, e6, ?_, e8⟩, h1, h2, ?_⟩
  · rw [Dict.has_eq] at e7 ⊢
    obtain ⟨t, e⟩ := Option.isSome_iff_exists.mp e7
    rw [g.keeps.term rn t e]; rfl
  · intro d k1 k2 k3
    rw [hent d k2]
    exact h3 d k1 k2 k3

theorem Near.tab (h : s.Near K c x v) (t : TabEq s s1) (hf : s1.frames = s.frames) (ho : s1.octx = s.octx) : s1.Near K c x v := by
  obtain ⟨c0, ⟨rn, j, b, w, a1, a2, e1, e2, e3, e4, e5, e6, e7, e8⟩, h1, h2, h3⟩ := h
  have hent : ∀ d, s1.ent d x = s.ent d x := fun d => by simp only [BV.ent, hf]
  exact ⟨c0, ⟨rn, j, b, w, a1, a2, by rw [hent]; exact e1, by rw [t.objs]; exact e2, e3, e4, by rw [ho]; exact e5, e6, by rw [t.terms]; exact e7, e8⟩, h1, h2,
    fun d k1 k2 k3 => by rw [hent]; exact h3 d k1 k2 k3⟩

theorem Consts.same (h : s.ConstsAt K cs) (ht : s1.terms = s.terms) (ho : s1.octx = s.octx) : s1.ConstsAt K cs := by
  intro p n hp
  rw [ht, ho]
  exact h p n hp

/-- The statement assigns the signal, which is `v` in front of it, outside of conditions, the number `w` last. -/
def BaSet (K : BaEnv) (cs : Str → Option Int) (x : ScopeChain) (v w : Int) (vis : BV → Py BV) : Prop :=
  ∀ (s s' : BV) (c : ScopeChain), BaWF K s → BaFr K s c → BaChain K s.frames c [] → s.current = c → s.Near K c x v → s.ConstsAt K cs → vis s = .ok s' →
    ∃ asg : ScopeChain → Prop, BaStep K s s' c asg ∧ KeepC K s s' ∧ asg x ∧ s'.Holds K x w

theorem assign_holds (hw : BaWF K s) (hf : BaFr K s c) (hK : K.OK) (hc : BaChain K s.frames c []) (hcur : s.current = c) {n : Str} {r : Ex}
    (hx : K.res n = some x) (hX : K.X x) (hv : ∀ t d, s.getTree r c = .ok t → s.opt t = .ok d → ∃ w a1 a2, d = .ev (.int v) w a1 a2)
    (h : s.Assigns (.ident [] n) r s') : s'.Holds K x v := by
  obtain ⟨p', raw, rn, dd, hp, hraw, hopt, -, h2, h3, hbt, hcon, -⟩ := assign_consts hw hf hK hc hcur hx hX h
  obtain ⟨w, a1, a2, rfl⟩ := hv raw dd hraw hopt
  have hp' : p' = [] := by
    simp only [TEnv.path, ok_inj] at hp
    exact hp.symm
  subst hp'
  simp only [bindTree, diffBranchTree, addTree, makeBranchTree, appendBranchTree, ne_eq, not_true_eq_false, false_and, if_false, ok_bind] at hbt
  exact ⟨rn, w, a1, a2, reo_term hbt, hcon rfl, h3, h2⟩

theorem set_ba (hK : K.OK) {n : Str} {r : Ex} (hx : K.res n = some x) (hX : K.X x) (he : CountEx cs n v r w) : BaSet K cs x v w (Stmt.visit (.ba (.ident [] n) r)) := by
  intro s s' c hw hf hc hcur ⟨c0, hF, k1, k2, k3⟩ hcs h
  exact ⟨_, (assign_ba hw hf hK hc hcur hx hX h).1, assign_keep hw hf hK hc hcur hx hX h, rfl,
    assign_holds hw hf hK hc hcur hx hX (fun t d ht hd => read_ev hw hc hx hF k1 k2 k3 hcs he ht hd) h⟩

theorem set_list {pre : List Stmt} {st : Stmt} (hpre : ∀ st ∈ pre, BaMove K (fun y => y ≠ x) st.visit) (hst : BaSet K cs x v w st.visit) :
    BaSet K cs x v w (Stmt.visitList (pre ++ [st])) := by
  intro s s' c hw hf hc hcur hN hcs h
  obtain ⟨s1, s2, h1, h2, h3⟩ := visitList_split pre h
  simp only [Stmt.visitList, ok_inj] at h3
  subst h3
  obtain ⟨a1, g1, p1, k1⟩ := move_list pre hpre s s1 c [] hw hf hc hcur h1
  obtain ⟨a2, g2, k2, p2, hH⟩ := hst s1 s2 c g1.keeps.wf (g1.fr hf) (g1.chain hc) (g1.cur.trans hcur) (Near.step hN g1 k1 (fun h => p1 x h rfl))
    (k1.consts g1.keeps.term hcs) h2
  exact ⟨_, g1.trans g2, k1.trans g1.keeps.term k2, .inr p2, hH⟩

theorem set_iteration {vis : BV → Py BV} (hX : K.X x) (hg : BaSet K cs x v w vis) {lab : ScopeLabel} (hl : lab.type ≠ .if_ ∧ lab.type ≠ .module) :
    BaSet K cs x v w (fun s => s.iteration lab vis) := by
  intro s s' c hw hf hc hcur hN hcs h
  simp only [BV.iteration, bind_ok, ok_inj] at h
  obtain ⟨s1, h1, s2, h2, s3, h3, rfl⟩ := h
  obtain ⟨o, -⟩ := enter_ba hc hcur (fun _ => hl) (fun a h => by cases h) h1
  simp only [pathStep, List.append_nil] at o
  obtain ⟨asg, g, kk, hx, hH⟩ := hg s1 s2 _ (o.tab.wf hw) (o.fr hf) o.inner o.cur (Near.inside hN o (enter_octx h1)) (Consts.same hcs o.tab.terms (enter_octx h1)) h2
  have hc2 : s2.current = c ++ [lab] := g.cur.trans o.cur
  rw [hc2, hcur] at h3
  have pB := (side_post o g).current s.current
  have hcop : BV.copyBlocking { s2 with current := s.current } (c ++ [lab]) c = .ok { s3 with current := s.current } := copyBlocking_current h3 _
  obtain ⟨q1, ⟨q2, -, -⟩, q3⟩ := step_of_sides (s'' := { s3 with current := s.current }) hw hf hc pB rfl (by
    simp only [List.foldlM_cons, List.foldlM_nil, hcop]
    rfl)
  have ho : s3.octx = s2.octx := copyBlocking_octx h3
  refine ⟨_, q1, KeepC.mid (s' := { s3 with current := s.current }) (enter_octx h1) o.tab.terms kk ho, hx, ?_⟩
  obtain ⟨rn, w', a1, a2, e1, e2, e3, e4⟩ := hH
  exact ⟨rn, w', a1, a2, (q3 x hX).trans e1, by show s3.octx.consts.get? rn = _; rw [ho]; exact e2, by rw [q2]; exact e3, e4⟩

theorem set_block {name : Option Str} {vis : BV → Py BV} (hX : K.X x) (hg : BaSet K cs x v w vis) : BaSet K cs x v w (Stmt.visitBlock name vis) := by
  intro s s' c hw hf hc hcur hN hcs h
  simp only [Stmt.visitBlock, bind_ok] at h
  obtain ⟨⟨l, sl⟩, hl, s1, h1, s2, h2, f, hf3, h⟩ := h
  have hlab : (TabEq s sl ∧ sl.frames = s.frames ∧ sl.current = s.current) ∧ sl.octx = s.octx := by
    cases name with
    | some n =>
      simp only [BV.blockLabel, ok_inj, Prod.mk.injEq] at hl
      obtain ⟨-, rfl⟩ := hl
      exact ⟨⟨.refl, rfl, rfl⟩, rfl⟩
    | none => exact ⟨label_tab hl, label_octx hl⟩
  obtain ⟨⟨tl, fl, cl⟩, ol⟩ := hlab
  have hwl := tl.wf hw
  have hfl := BaFr.tab tl fl hf
  have hcl : BaChain K sl.frames c [] := by rw [fl]; exact hc
  have hcurl : sl.current = c := cl.trans hcur
  obtain ⟨o, -⟩ := enter_ba hcl hcurl (fun _ => ⟨by simp, by simp⟩) (fun a h => by cases h) h1
  simp only [pathStep, List.append_nil] at o
  obtain ⟨asg, g, kk, hx, hH⟩ := hg s1 s2 _ (o.tab.wf hwl) (o.fr hfl) o.inner o.cur (Near.inside (Near.tab hN tl fl ol) o (enter_octx h1))
    (Consts.same hcs (o.tab.terms.trans tl.terms) ((enter_octx h1).trans ol)) h2
  have pB := (side_post o g).current s.current
  obtain ⟨g', hg1, hg2⟩ := (pB.chain hcl).frame
  have hf3 := frame_get hf3
  rw [hcur] at hf3
  rw [hcur] at hg1
  have : g' = f := by
    rw [hf3] at hg1; exact (Option.some.inj hg1).symm
  subst this
  rw [if_pos hg2.always] at h
  obtain ⟨q1, ⟨q2, -, -⟩, q3⟩ := step_of_sides (s'' := s') hwl hfl hcl pB cl.symm (by
    simp only [List.foldlM_cons, List.foldlM_nil]
    rw [← hcur, h]
    rfl)
  have ho : s'.octx = s2.octx := (copyBlocking_octx h).trans rfl
  refine ⟨_, q1.labelled tl fl cl, KeepC.mid ((enter_octx h1).trans ol) (o.tab.terms.trans tl.terms) kk ho, hx, ?_⟩
  obtain ⟨rn, w', a1, a2, e1, e2, e3, e4⟩ := hH
  exact ⟨rn, w', a1, a2, (q3 x hX).trans e1, by rw [ho]; exact e2, by rw [q2]; exact e3, e4⟩

/-- The turns of a while loop, numbered from `k`, with the values that `i` reads as in front of the condition and at the beginning of
the turns. -/
inductive WhileReads (cs : Str → Option Int) (i : Str) (b : Stmt) (l : Str) (c : Ex) : Nat → Int → BV → List Int → BV → Prop
  | stop {k : Nat} {v x s} : s.ReadsAs cs i v → s.Static c x → x ≤ 0 → WhileReads cs i b l c k v s [] s
  | turn {k : Nat} {v x w s s1 s' vs} : s.ReadsAs cs i v → s.Static c x → 0 < x → TurnReading cs i v b ⟨l, .while_, some (k : Int)⟩ s s1 →
      WhileReads cs i b l c (k + 1) w s1 vs s' → WhileReads cs i b l c k v s (v :: vs) s'

theorem whileLoop_counts {b : Stmt} {i : Str} {e q : Ex} (hx : K.res i = some x) (hX : K.X x) (hC : Counting cs i e q)
    (hb : ∀ v w, CountEx cs i v q w → BaSet K cs x v w b.visit) {l : Str} :
    ∀ (m k : Nat) (v : Int) (s s' : BV), BaWF K s → BaFr K s c → BaChain K s.frames c [] → s.current = c → s.Fixed K c x v → s.ConstsAt K cs →
      Stmt.whileLoop l e b.visit m (k : Int) s = .ok s' → ∃ vs, WhileReads cs i b l e k v s vs s' ∧ CountTurns cs i e q v vs
  | 0, k, v, s, s', hw, hf, hc, hcur, hF, hcs, h => by simp [Stmt.whileLoop] at h
  | m + 1, k, v, s, s', hw, hf, hc, hcur, hF, hcs, h => by
    simp only [Stmt.whileLoop] at h
    obtain ⟨go, hgo, h⟩ := bind_ok.mp h
    obtain ⟨y, hy, hgo⟩ := staticCond_static hgo
    obtain ⟨⟨x1, hx1⟩, w, hw1⟩ := hC v
    have e1 := Fixed_here hcs hw hc hcur hx hF _ _ hx1 _ hy
    subst e1
    split at h
    · rename_i hgt
      obtain ⟨s1, h1, h⟩ := bind_ok.mp h
      obtain ⟨asg, g, kk, ha, hH⟩ := set_iteration hX (hb v w hw1) ⟨by simp, by simp⟩ s s1 c hw hf hc hcur (Fixed.near hc hF) hcs h1
      obtain ⟨vs, hvs, hct⟩ := whileLoop_counts hx hX hC hb m (k + 1) w s1 s' g.keeps.wf (g.fr hf) (g.chain hc) (g.cur.trans hcur)
        (Holds.fixed hH g ha) (kk.consts g.keeps.term hcs) (by exact_mod_cast h)
      refine ⟨v :: vs, .turn (Fixed_here hcs hw hc hcur hx hF) hy (hgo.mp hgt) ?_ hvs, .turn hx1 (hgo.mp hgt) hw1 hct⟩
      unfold BV.iteration at h1
      obtain ⟨t1, k1, h1⟩ := bind_ok.mp h1
      obtain ⟨t2, k2, h1⟩ := bind_ok.mp h1
      obtain ⟨t3, k3, h1⟩ := bind_ok.mp h1
      rw [ok_inj] at h1
      obtain ⟨o, -⟩ := enter_ba hc hcur (l := ⟨l, .while_, some (k : Int)⟩) (fun _ => ⟨by simp, by simp⟩) (fun a h => by cases h) k1
      have hin := Fixed_inside hcs hw hc hcur hx hF ⟨by simp, by simp⟩ k1
      have hc1 : t1.current = s.current ++ [⟨l, .while_, some (k : Int)⟩] := by rw [hcur]; exact o.cur
      rw [(visit_stays b _ _ k2).1, hc1] at k3
      exact ⟨t1, t2, k1, hc1, hin, k2, t3, k3, h1.symm⟩
    · rename_i hgt
      rw [ok_inj] at h; subst h
      have hle : y ≤ 0 := by
        by_contra hne
        exact hgt (hgo.mpr (by omega))
      exact ⟨[], .stop (Fixed_here hcs hw hc hcur hx hF) hy hle, .stop hx1 hle⟩

/-- A while loop was visited from `s` to `s'`: its turns are those of the loop over integers that starts with `i` at `v`. -/
def WhileCounting (cs : Str → Option Int) (i : Str) (c q : Ex) (b : Stmt) (v : Int) (vs : List Int) (s s' : BV) : Prop :=
  (Stmt.whiles c b).visit s = .ok s' ∧ (∃ l s1, s.label "while".toList = .ok (l, s1) ∧ WhileReads cs i b l c 0 v s1 vs s') ∧ CountTurns cs i c q v vs

/-- **C97 (partial)**: behind `i = a;` in the block of an always block, a while loop whose condition is made of `i`, constants and
literals, and whose body is a block that ends with `i = q;`, `q` made of the same, and that does not assign `i` before, makes the turns
of the loop over integers. -/
theorem C97_while_count_partial (s s' : BV) (mod : ScopeChain) (ls : List Sens) (i as : Str) (a : Int) (c q : Ex) (Q : Str → Bool) (D : Str → Prop)
    (name name' : Option Str) (pre pre' post : List Stmt) (ha : hasXZ as = false ∧ intConstEval as = .ok a)
    (hm : s.AtModule mod) (hn : LoopNames s mod Q D) (cs : Str → Option Int) (hcs : ConstNames s mod D cs) (hi : D i) (hC : Counting cs i c q)
    (hpre : ∀ st ∈ pre, st.LoopBody (fun n => Q n = true) D) (hpre' : ∀ st ∈ pre', st.LoopBody (fun n => Q n = true) (fun n => D n ∧ n ≠ i))
    (h : s.visitAlways ls (.block name (pre ++ .ba (.ident [] i) (.intc as) :: .whiles c (.block name' (pre' ++ [.ba (.ident [] i) q])) :: post)) = .ok s') :
    ∃ t0 t1 t t' t2 ls vs, Stmt.visitList pre t0 = .ok t1 ∧ t0.terms = s.terms ∧ t0.current = mod ++ ls ∧ ls.length = 2 ∧ t1.Assigns (.ident [] i) (.intc as) t ∧
      WhileCounting cs i c q (.block name' (pre' ++ [.ba (.ident [] i) q])) a vs t t' ∧ Stmt.visitList post t' = .ok t2 := by
  obtain ⟨K, hK, hD, hQ, t0, t1, t, t2, ls, hcs1, hw, hf, hc, hcur, m1, m2, m3, m4, m5, m6⟩ := always_block hcs hm hn hpre h
  obtain ⟨x, hx, hX⟩ := hD i hi
  rw [← hQ] at hpre'
  simp only [Stmt.visitList, bind_ok] at m6
  obtain ⟨t', m6, m7⟩ := m6
  refine ⟨t0, t1, t, t', t2, ls, ?_⟩
  obtain ⟨g, -⟩ := assign_ba hw hf hK hc hcur hx hX m5
  have hH := assign_holds hw hf hK hc hcur hx hX (fun t d ht hd => lit_ev hw.nore ha.1 ha.2 ht hd) m5
  have hk := assign_keep hw hf hK hc hcur hx hX m5
  have hF := Holds.fixed hH g rfl
  have hcs2 := hk.consts g.keeps.term hcs1
  have m60 := m6
  simp only [Stmt.visit, Stmt.visitWhile, bind_ok] at m6
  obtain ⟨⟨l, u⟩, hl, m6⟩ := m6
  obtain ⟨tl, fl, cl⟩ := label_tab hl
  have ol := label_octx hl
  have hF1 : u.Fixed K (mod ++ ls) x a := by
    obtain ⟨rn, j, b, w, a1, a2, e1, e2, e3, e4, e5, e6, e7, e8⟩ := hF
    exact ⟨rn, j, b, w, a1, a2, by simpa only [BV.ent, fl] using e1, by rw [tl.objs]; exact e2, e3, e4, by rw [ol]; exact e5, e6, by rw [tl.terms]; exact e7, e8⟩
  obtain ⟨vs, hvs, hct⟩ := whileLoop_counts (b := .block name' (pre' ++ [.ba (.ident [] i) q])) hx hX hC (by
    intro v w hq
    have e0 : (Stmt.block name' (pre' ++ [.ba (.ident [] i) q])).visit = Stmt.visitBlock name' (Stmt.visitList (pre' ++ [.ba (.ident [] i) q])) := by
      funext s; simp only [Stmt.visit]
    rw [e0]
    refine set_block hX (set_list (fun st hs => body_move hK (fun n hn => ?_) (hpre' st hs)) (set_ba hK hx hX hq))
    obtain ⟨y, h1, h2⟩ := hD n hn.1
    exact ⟨y, h1, h2, fun e => hn.2 (res_inj h1 (e ▸ hx))⟩)
    u.loops 0 a u t' (tl.wf g.keeps.wf) (BaFr.tab tl fl (g.fr hf)) (by rw [fl]; exact g.chain hc) (cl.trans (g.cur.trans hcur)) hF1
    (Consts.same hcs2 tl.terms ol) (by simpa only [Stmt.visit, Nat.cast_zero] using m6)
  exact ⟨vs, m1, m2, m3, m4, m5, ⟨m60, ⟨l, u, hl, hvs⟩, hct⟩, m7⟩

end

/-! ### A loop -/

/-- `begin y = 0; while (y < b) begin if (a) x = y; y = y + 1; end end`, where `b` is 3. -/
example : ∃ s', c97k.visitAlways c58clk (.block none ([] ++ .ba (c58i "y") (.intc ['0']) :: .whiles (.bin .lessThan (c58i "y") (c58i "b"))
    (.block none ([.ifs (c58i "a") (.ba (c58i "x") (c58i "y")) .skip] ++ [.ba (c58i "y") (.bin .plus (c58i "y") (.intc ['1']))])) :: [])) = .ok s' ∧
    ∃ t t' vs, WhileCounting c97cs "y".toList (.bin .lessThan (c58i "y") (c58i "b")) (.bin .plus (c58i "y") (.intc ['1']))
      (.block none ([.ifs (c58i "a") (.ba (c58i "x") (c58i "y")) .skip] ++ [.ba (c58i "y") (.bin .plus (c58i "y") (.intc ['1']))])) 0 vs t t' ∧ vs.length = 3 := by
  have h6 : (c97k.visitAlways c58clk (.block none ([] ++ .ba (c58i "y") (.intc ['0']) :: .whiles (.bin .lessThan (c58i "y") (c58i "b"))
    (.block none ([.ifs (c58i "a") (.ba (c58i "x") (c58i "y")) .skip] ++ [.ba (c58i "y") (.bin .plus (c58i "y") (.intc ['1']))])) :: []))).toOption.isSome = true := by
    decide +kernel
  cases h : c97k.visitAlways c58clk (.block none ([] ++ .ba (c58i "y") (.intc ['0']) :: .whiles (.bin .lessThan (c58i "y") (c58i "b"))
    (.block none ([.ifs (c58i "a") (.ba (c58i "x") (c58i "y")) .skip] ++ [.ba (c58i "y") (.bin .plus (c58i "y") (.intc ['1']))])) :: [])) with
  | error e => rw [h] at h6; cases h6
  | ok s' =>
    obtain ⟨t0, t1, t, t', t2, ls, vs, -, -, -, -, -, h1, -⟩ := C97_while_count_partial c97k s' c58m c58clk "y".toList ['0'] 0 _ _ (fun n => n = "a".toList) c97D none none
      [] _ [] ⟨by decide, by decide⟩ c97k_module c97k_names c97cs c97k_const (.inr rfl)
      (fun _ => ⟨⟨_, .lt .var (.con (n := 3) rfl)⟩, _, .plus .var (.lit (by decide) (n := 1) (by decide))⟩)
      (fun _ h => by cases h) (by
        intro st hs
        simp only [List.mem_singleton] at hs
        subst hs
        exact .ifs rfl rfl (fun q hq => hq _ (by decide)) (.ba ⟨.inl rfl, by decide⟩) .skip) h
    obtain ⟨h2, h3, h4⟩ := count_steps (o := .lessThan) (n := 3) (k := 1) (by decide) rfl (fun _ => .con rfl) (.up (fun _ => .lit (by decide) (by decide))) h1.2.2
    refine ⟨s', rfl, t, t', vs, h1, ?_⟩
    simp only [decide_eq_false_iff_not] at h4
    by_contra hne
    have : 3 < vs.length := by omega
    have h5 := h2 3 this
    have h6 := h3 _ (List.mem_of_getElem? h5)
    simp only [Nat.cast_ofNat, decide_eq_true_eq] at h6
    omega

end Pyv
