import Verif.Props.LoopWhile
/-
  C97: loops in loops and blocks.
-/
namespace Pyv

/-- In the turns of a for loop, which starts with the value `v` in the state `s`, a turn begins in the state `u`, in its own scope. -/
inductive ForAt (b : Stmt) (l : Str) (c j qr : Ex) : Int → BV → BV → Prop
  | now {v x s u} : s.Static c x → 0 < x → s.enter ⟨l, .for_, some v⟩ none false = .ok u → ForAt b l c j qr v s u
  | next {v x w s s1 s2 u} : s.Static c x → 0 < x → s.iteration ⟨l, .for_, some v⟩ b.visit = .ok s1 → s1.Static qr w → s1.Assigns j qr s2 →
      ForAt b l c j qr w s2 u → ForAt b l c j qr v s u

/-- The same for a while loop, from the turn `k` on. -/
inductive WhileAt (b : Stmt) (l : Str) (c : Ex) : Int → BV → BV → Prop
  | now {k x s u} : s.Static c x → 0 < x → s.enter ⟨l, .while_, some k⟩ none false = .ok u → WhileAt b l c k s u
  | next {k x s s1 u} : s.Static c x → 0 < x → s.iteration ⟨l, .while_, some k⟩ b.visit = .ok s1 → WhileAt b l c (k + 1) s1 u → WhileAt b l c k s u

/-- In the visit of the statement `st` from the state `s`, the statement `st'` is visited from the state `t`: it is in blocks and loops
of `st`, outside of conditions. -/
inductive Sub : Stmt → BV → Stmt → BV → Prop
  | here {st s} : Sub st s st s
  | block {n pre st post s l sl u t st' t'} : s.blockLabel n = .ok (l, sl) → sl.enter ⟨l, .block, none⟩ none false = .ok u → Stmt.visitList pre u = .ok t →
      Sub st t st' t' → Sub (.block n (pre ++ st :: post)) s st' t'
  | fors {i e c j q b s v s0 l s1 u st' t'} : s.Static e v → s.Assigns i e s0 → s0.label "for".toList = .ok (l, s1) → ForAt b l c j q v s1 u →
      Sub b u st' t' → Sub (.fors i e c j q b) s st' t'
  | whiles {c b s l s1 u st' t'} : s.label "while".toList = .ok (l, s1) → WhileAt b l c 0 s1 u → Sub b u st' t' → Sub (.whiles c b) s st' t'

section
variable {K : BaEnv} {s s' s1 s2 u t : BV} {c d : ScopeChain} {p q : ExPath} {x : ScopeChain} {v w : Int} {cs : Str → Option Int}

/-- The state of the pass in an always block, outside of conditions. -/
def BaIn (K : BaEnv) (cs : Str → Option Int) (s : BV) : Prop :=
  BaWF K s ∧ BaFr K s s.current ∧ BaChain K s.frames s.current [] ∧ s.ConstsAt K cs

theorem BaIn.move {P : ScopeChain → Prop} {vis : BV → Py BV} (h : BaIn K cs s) (hv : BaMove K P vis) (h1 : vis s = .ok s') : BaIn K cs s' := by
  obtain ⟨hw, hf, hc, hcs⟩ := h
  obtain ⟨asg, g, -, k⟩ := hv s s' s.current [] hw hf hc rfl h1
  refine ⟨g.keeps.wf, ?_, ?_, k.consts g.keeps.term hcs⟩
  · rw [g.cur]; exact g.fr hf
  · rw [g.cur]; exact g.chain hc

theorem BaIn.tab (h : BaIn K cs s) (tl : TabEq s s1) (fl : s1.frames = s.frames) (cl : s1.current = s.current) (ol : s1.octx = s.octx) : BaIn K cs s1 := by
  obtain ⟨hw, hf, hc, hcs⟩ := h
  refine ⟨tl.wf hw, ?_, ?_, Consts.same hcs tl.terms ol⟩
  · rw [cl]; exact BaFr.tab tl fl hf
  · rw [cl, fl]; exact hc

theorem BaIn.enter (h : BaIn K cs s) {lab : ScopeLabel} (hl : lab.type ≠ .if_ ∧ lab.type ≠ .module) (h1 : s.enter lab none false = .ok s1) : BaIn K cs s1 := by
  obtain ⟨hw, hf, hc, hcs⟩ := h
  obtain ⟨o, -⟩ := enter_ba hc rfl (fun _ => hl) (fun a h => by cases h) h1
  simp only [pathStep, List.append_nil] at o
  refine ⟨o.tab.wf hw, ?_, ?_, Consts.same hcs o.tab.terms (enter_octx h1)⟩
  · rw [o.cur]; exact o.fr hf
  · rw [o.cur]; exact o.inner

theorem BaIn.forAt {P : ScopeChain → Prop} {b : Stmt} {l : Str} {e j qr : Ex} (hb : BaMove K P b.visit) (hj : BaMove K P (Stmt.visit (.ba j qr)))
    (h : ForAt b l e j qr v s u) : BaIn K cs s → BaIn K cs u := by
  induction h with
  | now _ _ h1 => exact fun h => h.enter ⟨by simp, by simp⟩ h1
  | next _ _ h1 _ h2 _ ih => exact fun h => ih ((h.move (iteration_move hb ⟨by simp, by simp⟩) h1).move hj h2)

theorem BaIn.whileAt {P : ScopeChain → Prop} {b : Stmt} {l : Str} {e : Ex} {k : Int} (hb : BaMove K P b.visit)
    (h : WhileAt b l e k s u) : BaIn K cs s → BaIn K cs u := by
  induction h with
  | now _ _ h1 => exact fun h => h.enter ⟨by simp, by simp⟩ h1
  | next _ _ h1 _ ih => exact fun h => ih (h.move (iteration_move hb ⟨by simp, by simp⟩) h1)

theorem BaIn.sub (hK : K.OK) {D : Str → Prop} (hD : ∀ n, D n → ∃ x, K.res n = some x ∧ K.X x ∧ (fun _ => True) x) {st st' : Stmt} (h : Sub st s st' t) :
    st.LoopBody (fun n => K.Q n = true) D → BaIn K cs s → BaIn K cs t := by
  induction h with
  | here => exact fun _ h => h
  | @block n pre st post s l sl u t st' t' hl h1 h2 _ ih =>
    intro hb h
    cases hb with
    | block hb =>
      refine ih (hb _ (by simp)) ?_
      have hlab : (TabEq s sl ∧ sl.frames = s.frames ∧ sl.current = s.current) ∧ sl.octx = s.octx := by
        cases n with
        | some n =>
          simp only [BV.blockLabel, ok_inj, Prod.mk.injEq] at hl
          obtain ⟨-, rfl⟩ := hl
          exact ⟨⟨.refl, rfl, rfl⟩, rfl⟩
        | none => exact ⟨label_tab hl, label_octx hl⟩
      obtain ⟨⟨tl, fl, cl⟩, ol⟩ := hlab
      exact ((h.tab tl fl cl ol).enter ⟨by simp, by simp⟩ h1).move (move_list pre (fun st hs => body_move hK hD (hb st (by simp [hs])))) h2
  | fors _ h1 h2 h3 _ ih =>
    intro hb h
    cases hb with
    | fors hi hj hb =>
      refine ih hb ?_
      obtain ⟨x, k1, k2, k3⟩ := hD _ hi
      obtain ⟨y, m1, m2, m3⟩ := hD _ hj
      obtain ⟨tl, fl, cl⟩ := label_tab h2
      exact BaIn.forAt (body_move hK hD hb) (move_ba (P := fun _ => True) hK m1 m2 m3) h3 ((h.move (move_ba (P := fun _ => True) hK k1 k2 k3) h1).tab tl fl cl (label_octx h2))
  | whiles h1 h2 _ ih =>
    intro hb h
    cases hb with
    | whiles hb =>
      refine ih hb ?_
      obtain ⟨tl, fl, cl⟩ := label_tab h1
      exact BaIn.whileAt (body_move hK hD hb) h2 (h.tab tl fl cl (label_octx h1))

/-- **C97 (partial)**: every for loop in blocks and loops of an always block, outside of conditions, whose condition and step are made
of its variable, constants and literals, and whose body does not assign the variable, makes the turns of the loop over integers. -/
theorem C97_nested_partial (s s' : BV) (mod : ScopeChain) (ls : List Sens) (body : Stmt) (Q : Str → Bool) (D : Str → Prop)
    (hm : s.AtModule mod) (hn : LoopNames s mod Q D) (cs : Str → Option Int) (hcs : ConstNames s mod D cs) (hbody : body.LoopBody (fun n => Q n = true) D)
    (h : s.visitAlways ls body = .ok s') :
    ∃ s1 s2 l, s1.current = mod ++ [l] ∧ body.visit s1 = .ok s2 ∧ s' = { s2 with current := mod } ∧
      ∀ i e c q b t t', D i → b.LoopBody (fun n => Q n = true) (fun n => D n ∧ n ≠ i) → Counting cs i c q →
        Sub body s1 (.fors (.ident [] i) e c (.ident [] i) q b) t → (Stmt.fors (.ident [] i) e c (.ident [] i) q b).visit t = .ok t' →
        ∃ v vs, LoopCounting cs i e c q b v vs t t' ∧ ∀ as a, e = .intc as → hasXZ as = false → intConstEval as = .ok a → v = a := by
  obtain ⟨s1, info, l, -, ⟨tab, oc⟩, hcur, hch, hent, s2, h2, rfl⟩ := always_start hm h
  obtain ⟨hK, hw, hD⟩ := loopNames_env hn hm info l
  refine ⟨s1, s2, l, hcur, h2, rfl, ?_⟩
  intro i e c q b t t' hi hb hC hsub ht
  obtain ⟨x, hx, hX⟩ := hD i hi
  have h0 : BaIn ⟨s, mod, mod ++ [l], fun x => ∃ n, D n ∧ x = mod ++ [⟨n, .signal, none⟩], info, Q⟩ cs s1 := by
    refine ⟨tab.wf hw, ?_, by rw [hcur]; exact hch _ _, hcs.at tab.terms oc rfl rfl (fun _ h => h)⟩
    rw [hcur]
    intro c' h1 h2 x i hi
    have : c' = mod ++ [l] := h2.eq_of_length (Nat.le_antisymm h2.length_le h1.length_le)
    subst this
    rw [hent] at hi; cases hi
  obtain ⟨k1, k2, k3, k4⟩ := BaIn.sub hK (fun n hn => let ⟨x, h1, h2⟩ := hD n hn; ⟨x, h1, h2, trivial⟩) hsub hbody h0
  obtain ⟨v, vs, hvs⟩ := (loop_counting (P := fun y => y ≠ x) k4 hK (body_move hK (fun n hn => by
    obtain ⟨y, h1, h2⟩ := hD n hn.1
    exact ⟨y, h1, h2, fun e => hn.2 (res_inj h1 (e ▸ hx))⟩) hb) hx hX k1 k2 k3 rfl ht).2 (fun h => h rfl) hC
  refine ⟨v, vs, hvs, ?_⟩
  rintro as a rfl ha1 ha2
  exact static_lit k1.nore ha1 ha2 hvs.2.1.choose_spec.choose_spec.choose_spec.1

end

/-! ### A loop in a loop -/

/-- `for (x = 0; x < b; x = x + 1) ;` -/
def c97inner : Stmt := .fors (c58i "x") (.intc ['0']) (.bin .lessThan (c58i "x") (c58i "b")) (c58i "x") (.bin .plus (c58i "x") (.intc ['1'])) .skip

/-- `for (y = 0; y < b; y = y + 1)` of it. -/
def c97outer : Stmt := .fors (c58i "y") (.intc ['0']) (.bin .lessThan (c58i "y") (c58i "b")) (c58i "y") (.bin .plus (c58i "y") (.intc ['1'])) c97inner

theorem c97_step (i : Str) : Counting c97cs i (.bin .lessThan (.ident [] i) (c58i "b")) (.bin .plus (.ident [] i) (.intc ['1'])) :=
  fun _ => ⟨⟨_, .lt .var (.con (n := 3) rfl)⟩, _, .plus .var (.lit (by decide) (n := 1) (by decide))⟩

/-- The inner loop is visited in the first turn of the outer one, and its turns are those of the loop over integers from 0. -/
example : ∃ s', c97k.visitAlways c58clk c97outer = .ok s' ∧ ∃ s1 t t' vs, Sub c97outer s1 c97inner t ∧
    LoopCounting c97cs "x".toList (.intc ['0']) (.bin .lessThan (c58i "x") (c58i "b")) (.bin .plus (c58i "x") (.intc ['1'])) .skip 0 vs t t' ∧ vs.length = 3 := by
  have h6 : (c97k.visitAlways c58clk c97outer).toOption.isSome = true := by decide +kernel
  cases h : c97k.visitAlways c58clk c97outer with
  | error e => rw [h] at h6; cases h6
  | ok s' =>
    refine ⟨s', rfl, ?_⟩
    have hbo : c97outer.LoopBody (fun n => decide (n = "a".toList) = true) c97D := .fors (.inr rfl) (.inr rfl) (.fors (.inl rfl) (.inl rfl) .skip)
    obtain ⟨s1, s2, l, -, h2, -, H⟩ := C97_nested_partial c97k s' c58m c58clk c97outer (fun n => n = "a".toList) c97D c97k_module c97k_names c97cs c97k_const hbo h
    obtain ⟨v, vs, ⟨-, ⟨s0, lb, u1, g1, g2, g3, g4⟩, g5⟩, g6⟩ := H "y".toList _ _ _ c97inner s1 s2 (.inr rfl)
      (.fors ⟨.inl rfl, by decide⟩ ⟨.inl rfl, by decide⟩ .skip) (c97_step _) .here h2
    obtain rfl := g6 ['0'] 0 rfl (by decide) (by decide)
    cases g4 with
    | stop _ _ _ =>
      cases g5 with
      | stop k1 k2 =>
        have := k1.unique (by decide) (.lt .var (.con (n := 3) rfl))
        subst this
        exact absurd k2 (by decide)
    | turn _ k1 k2 k3 _ _ _ =>
      obtain ⟨u2, u3, m1, -, -, m2, -⟩ := k3
      have hs : Sub c97outer s1 c97inner u2 := .fors g1 g2 g3 (.now k1 k2 m1) .here
      obtain ⟨v, ws, n1, n2⟩ := H "x".toList _ _ _ .skip u2 u3 (.inl rfl) .skip (c97_step _) hs m2
      obtain rfl := n2 ['0'] 0 rfl (by decide) (by decide)
      refine ⟨s1, u2, u3, ws, hs, n1, ?_⟩
      obtain ⟨h2, h3, h4⟩ := count_steps (o := .lessThan) (n := 3) (k := 1) (by decide) rfl (fun _ => .con rfl) (.up (fun _ => .lit (by decide) (by decide))) n1.2.2
      simp only [decide_eq_false_iff_not] at h4
      by_contra hne
      have : 3 < ws.length := by omega
      have h5 := h2 3 this
      have h6 := h3 _ (List.mem_of_getElem? h5)
      simp only [Nat.cast_ofNat, decide_eq_true_eq] at h6
      omega

end Pyv
