import Verif.Props.BaSem
/-
  C74: the visitor does what the specification of blocking assignments says, statement by statement.
-/
namespace Pyv

/-- What an execution of statements does to the values. -/
abbrev BaRunner := (ScopeChain → Int × Int → Int × Int) → Env → Option Env

/-- The trees of `s'` come from those of `s` by statements, visited in `c`, under the conditions `q`, that assign `asg` and do `run`. -/
structure BaRes (K : BaEnv) (s s' : BV) (c : ScopeChain) (q : ExPath) (asg : ScopeChain → Bool) (run : BaRunner) : Prop where
  norm : ∀ x, K.X x → nf true (s'.treeOf x)
  at_ : ∀ x, asg x = true → K.A.At (s'.treeOf x) q
  same : ∀ x, K.X x → asg x = false → s'.treeOf x = s.treeOf x
  sib : ∀ x, K.X x → K.A.Sib q (s.treeOf x) (s'.treeOf x)
  off : ∀ τ, K.A.Sound τ K.res → exDec τ K.res q = some false → ∀ x, K.X x → sched τ (s'.treeOf x) = sched τ (s.treeOf x)
  on : ∀ cut τ η η', BaFits K s' cut τ → exDec τ K.res q = some true → SemVal K τ s η → VisOK K τ s c →
    run (fitTo K.s0.terms cut) η = some η' → SemVal K τ s' η'

/-- A visitor of statements does what `run` says, for the states accepted by `chk`. -/
def BaGood (K : BaEnv) (vis : BV → Py BV) (asg : ScopeChain → Bool) (chk : ScopeChain → NbSt → Option NbSt) (run : BaRunner) : Prop :=
  ∀ (s s' : BV) (c : ScopeChain) (p : ExPath) (σ σ' : ScopeChain → NbSt), BaWF K s → BaFr K s c → BaChain K s.frames c p → s.current = c →
    (∀ x, K.X x → chk x (σ x) = some (σ' x) ∧ NbInv K.A (σ x) p (s.treeOf x) none) → vis s = .ok s' →
    BaStep K s s' c (fun x => asg x = true) ∧ BaRes K s s' c p asg run ∧ ∀ x, K.X x → NbInv K.A (σ' x) p (s'.treeOf x) none

section
variable {K : BaEnv} {s s' s1 s2 s'' : BV} {c d : ScopeChain} {p q : ExPath} {asg asg' asgT asgF : ScopeChain → Bool}
  {run run' runT runF : BaRunner} {vis : BV → Py BV} {chk : ScopeChain → NbSt → Option NbSt} {fs fs' : List ScopeChain}

theorem BaRes.weaken (h : BaRes K s s' c q asg run) (ha : ∀ x, asg' x = asg x) (hr : ∀ fit η η', run' fit η = some η' → run fit η = some η') :
    BaRes K s s' c q asg' run' := by
  have : asg' = asg := funext ha
  subst this
  exact ⟨h.norm, h.at_, h.same, h.sib, h.off, fun cut τ η η' h1 h2 h3 h4 h5 => h.on cut τ η η' h1 h2 h3 h4 (hr _ _ _ h5)⟩

theorem BaRes.skip (hn : ∀ x, K.X x → nf true (s.treeOf x)) (hr : ∀ fit η η', run fit η = some η' → η' = η) :
    BaRes K s s c q (fun _ => false) run :=
  ⟨hn, fun _ h => (by cases h), fun _ _ _ => rfl, fun _ _ => .refl, fun _ _ _ _ _ => rfl, fun _ _ _ _ _ _ h3 _ h5 => (by rw [hr _ _ _ h5]; exact h3)⟩

/-- The same tables after. -/
theorem BaRes.right (hK : K.OK) (hX : ∀ x, asg x = true → K.X x) (h : BaRes K s s' c q asg run) (g : Carries K s' s'') (ht : ∀ x, K.X x → s''.treeOf x = s'.treeOf x) : BaRes K s s'' c q asg run where
  norm x hX := by rw [ht x hX]; exact h.norm x hX
  at_ x hx := by rw [ht x (hX x hx)]; exact h.at_ x hx
  same x hX hx := by rw [ht x hX]; exact h.same x hX hx
  sib x hX := by rw [ht x hX]; exact h.sib x hX
  off τ h1 h2 x hX := by rw [ht x hX]; exact h.off τ h1 h2 x hX
  on cut τ η η' h1 h2 h3 h4 h5 := (h.on cut τ η η' (h1.back hK g) h2 h3 h4 h5).tree (fun x hX => by rw [ht x hX])

theorem BaRes.opened (o : Opened K s s1 c d p q) (h : BaRes K s1 s' d q asg run) : BaRes K s s' c q asg run where
  norm := h.norm
  at_ := h.at_
  same x hX hx := by rw [h.same x hX hx, o.tab.treeOf]
  sib x hX := by have := h.sib x hX; rwa [o.tab.treeOf] at this
  off τ h1 h2 x hX := by rw [h.off τ h1 h2 x hX, o.tab.treeOf]
  on cut τ η η' h1 h2 h3 h4 h5 := h.on cut τ η η' h1 h2 (h3.tree (fun x _ => by rw [o.tab.treeOf])) (h4.open o) h5

theorem BaRes.labelled (ht : TabEq s s1) (hfr : s1.frames = s.frames) (h : BaRes K s1 s' c q asg run) : BaRes K s s' c q asg run where
  norm := h.norm
  at_ := h.at_
  same x hX hx := by rw [h.same x hX hx, ht.treeOf]
  sib x hX := by have := h.sib x hX; rwa [ht.treeOf] at this
  off τ h1 h2 x hX := by rw [h.off τ h1 h2 x hX, ht.treeOf]
  on cut τ η η' h1 h2 h3 h4 h5 := h.on cut τ η η' h1 h2 (h3.tree (fun x _ => by rw [ht.treeOf])) (h4.tab ht hfr) h5

/-- One after the other. -/
theorem BaRes.trans (hK : K.OK) (hw : BaWF K s) (hf : BaFr K s c) (hc : BaChain K s.frames c p) (hs : BaStep K s s1 c (fun x => asg x = true))
    (hs' : BaStep K s1 s2 c (fun x => asg' x = true)) (h : BaRes K s s1 c p asg run) (g : BaRes K s1 s2 c p asg' run') :
    BaRes K s s2 c p (fun x => asg x || asg' x) (fun fit η => (run fit η).bind (run' fit)) where
  norm := g.norm
  at_ x hx := by
    cases hx' : asg' x with
    | true => exact g.at_ x hx'
    | false =>
      rw [hx', Bool.or_false] at hx
      rw [g.same x (hs.keeps.asgX x hx) hx']
      exact h.at_ x hx
  same x hX hx := by
    simp only [Bool.or_eq_false_iff] at hx
    rw [g.same x hX hx.2, h.same x hX hx.1]
  sib x hX := (h.sib x hX).trans (g.sib x hX)
  off τ h1 h2 x hX := by rw [g.off τ h1 h2 x hX, h.off τ h1 h2 x hX]
  on cut τ η η' h1 h2 h3 h4 h5 := by
    obtain ⟨η1, k1, k2⟩ := Option.bind_eq_some_iff.mp h5
    have f1 := h1.back hK (hs'.keeps.carries hs.keeps.wf)
    exact g.on cut τ η1 η' h1 h2 (h.on cut τ η η1 f1 h2 h3 h4 k1) (h4.step hc.under hw hf hs) k2

/-- The value of a condition is the one before the block. -/
theorem cond_value (hK : K.OK) {τ η : Env} (h : SemVal K τ s η) {e : Ex} (he : e.allNames K.Q = true) {v} (hv : exVal η K.res e = some v) : exVal τ K.res e = some v := by
  refine exVal_le (Q := K.Q) ?_ h.arr h.dw e he v hv
  intro n c hn hc
  obtain ⟨c', h1, h2⟩ := hK.cond n hn
  rw [hc] at h1; cases h1
  exact ⟨hc, h.other c h2⟩

/-- Both sides of a condition. -/
theorem if_res (hK : K.OK) (hf : BaFr K s c) {e : Ex} (he : e.allNames K.Q = true)
    (hT : SidesPost K s s1 c fs (fun x => asgT x = true)) (rT : BaRes K s s1 c (p ++ [(e, true)]) asgT runT)
    (hF : SidesPost K s1 s2 c fs' (fun x => asgF x = true)) (rF : BaRes K s1 s2 c (p ++ [(e, false)]) asgF runF) :
    BaRes K s s2 c p (fun x => asgT x || asgF x) (fun fit η => do
      let b ← exVal η K.res e
      if b.1 ≠ 0 then runT fit η else runF fit η) where
  norm := rF.norm
  at_ x hx := by
    cases hx' : asgF x with
    | true => exact (rF.at_ x hx').prefix
    | false =>
      rw [hx', Bool.or_false] at hx
      rw [rF.same x (hT.keeps.asgX x hx) hx']
      exact (rT.at_ x hx).prefix
  same x hX hx := by
    simp only [Bool.or_eq_false_iff] at hx
    rw [rF.same x hX hx.2, rT.same x hX hx.1]
  sib x hX := (rT.sib x hX).prefix.trans (rF.sib x hX).prefix
  off τ h1 h2 x hX := by rw [rF.off τ h1 (exDec_snoc_false h2) x hX, rT.off τ h1 (exDec_snoc_false h2) x hX]
  on cut τ η η' h1 h2 h3 h4 h5 := by
    simp only [Option.bind_eq_bind, Option.bind_eq_some_iff] at h5
    obtain ⟨b, hb, h5⟩ := h5
    have hb' := cond_value hK h3 he hb
    have f1 := h1.back hK (hF.keeps.carries hT.keeps.wf)
    have hS := h1.sound hF.keeps.wf
    by_cases hz : b.1 = 0
    · have d1 : exDec τ K.res (p ++ [(e, true)]) = some false := by rw [exDec_snoc h2 hb']; simp [hz]
      have d2 : exDec τ K.res (p ++ [(e, false)]) = some true := by rw [exDec_snoc h2 hb']; simp [hz]
      rw [if_neg (by simp [hz])] at h5
      have k1 := rT.off τ hS d1
      exact rF.on cut τ η η' h1 d2 (h3.tree k1) (h4.sides hf hT k1) h5
    · have d1 : exDec τ K.res (p ++ [(e, true)]) = some true := by rw [exDec_snoc h2 hb']; simp [hz]
      have d2 : exDec τ K.res (p ++ [(e, false)]) = some false := by rw [exDec_snoc h2 hb']; simp [hz]
      rw [if_pos (by simpa using hz)] at h5
      exact (rT.on cut τ η η' f1 d1 h3 h4 h5).tree (rF.off τ hS d2)

/-! ### The states of the check -/

theorem enter_inv {A : TEnv} (hA : A.Norm) {e : Ex} {b : Bool} {st st' : NbSt} {T : DF} (hp : ExPathOK p) (he : e.noCond = true) (h : st.enter = some st') (hinv : NbInv A st p T none) :
    NbInv A st' (p ++ [(e, b)]) T none :=
  (entered_enter (res := fun _ => none) (s1 := (T, none)) hA (exPathOK_snoc hp he) h hinv rfl).1

theorem else_inv {A : TEnv} (hA : A.Norm) {e : Ex} {st st' : NbSt} {T T1 : DF} {a : Bool} (hp : ExPathOK p) (he : e.noCond = true)
    (h : (if a then st.other else st.enter) = some st') (hinv : NbInv A st p T none) (hn : nf true T1)
    (hat : a = true → A.At T1 (p ++ [(e, true)])) (hs : a = false → T1 = T) (hsib : A.Sib (p ++ [(e, true)]) T T1) :
    NbInv A st' (p ++ [(e, false)]) T1 none := by
  cases a with
  | false =>
    rw [hs rfl]
    exact enter_inv hA hp he h hinv
  | true =>
    refine (entered_other (res := fun _ => none) (s1 := (T1, none)) h ?_ hn rfl (hat rfl) ?_ rfl).1
    · rintro rfl
      obtain ⟨-, ⟨v, hv, -⟩, -⟩ := hinv
      cases hv
    · rintro rfl
      exact hsib p e true [] rfl hinv.2.2.extend

theorem BaRes.after (h : BaRes K s s' c p asg run) {x : ScopeChain} (hX : K.X x) {st : NbSt} (hinv : NbInv K.A st p (s.treeOf x) none) :
    NbInv K.A (if asg x then st.after else st) p (s'.treeOf x) none := by
  refine inv_after hinv (h.norm x hX) ?_ (h.at_ x) (fun _ => h.same x hX)
  cases hx : asg x with
  | true => exact .inr (h.at_ x hx)
  | false => exact .inl (h.same x hX hx)

/-! ### Assignments -/

theorem ba_good (hK : K.OK) {n : Str} {r : Ex} {x : ScopeChain} (hr : r.flat = true) (hx : K.res n = some x) (hX : K.X x) :
    BaGood K (Stmt.ba (.ident [] n) r).visit (fun y => decide (y = x))
      (fun y st => if y = x then (if st = .deep then none else some .matched) else some st)
      (fun fit η => some (η.set x ((exVal η K.res r).map (fit x)))) := by
  intro s s' c p σ σ' hw hf hc hcur hσ h
  obtain ⟨st, p', raw, rn, t, h1, h2, h3, h4, h5, h6, h7, b, h8, h9⟩ := assign_ba hw hf hK hc hcur hx hX h
  have hst : BaStep K s s' c (fun y => decide (y = x) = true) := st.congr (fun y => by simp)
  have hreo : s.reo = K.A.reo := by funext z; simp only [BV.reo, BaEnv.A, BV.flatA, hw.fuel]
  have hput : K.A.put p (s.treeOf x) (.term rn) = .ok (s'.treeOf x) := by
    simp only [TEnv.put, h1, ok_bind]
    rw [← hreo]; exact h4
  obtain ⟨hchk, hinv⟩ := hσ x hX
  simp only [if_true] at hchk
  have hadd : K.A.AddAt (s.treeOf x) p := by
    obtain ⟨-, hinv⟩ := hinv
    cases hst' : σ x <;> rw [hst'] at hinv hchk <;> simp only [reduceCtorEq, if_true, if_false] at hchk
    · exact hinv.2.add
    · exact hinv.2.add
    · exact hinv.2
    · obtain ⟨⟨v, hv, -⟩, -⟩ := hinv; cases hv
    · obtain ⟨⟨v, hv, -⟩, -⟩ := hinv; cases hv
  obtain ⟨g1, g2, g3, g4⟩ := put_sem (res := K.res) (flatA_norm K.s0 K.mod) hc.exPath hinv.1 (by simp [nf]) hput hadd
  have hother : ∀ y, K.X y → y ≠ x → s'.treeOf y = s.treeOf y := fun y hY hy => st.keeps.tree0 hw hY hy
  refine ⟨hst, ⟨?_, ?_, ?_, ?_, ?_, ?_⟩, ?_⟩
  · intro y hY
    by_cases hy : y = x
    · subst hy; exact g1
    · rw [hother y hY hy]; exact (hσ y hY).2.1
  · intro y hy
    simp only [decide_eq_true_eq] at hy
    subst hy
    exact g2
  · intro y hY hy
    simp only [decide_eq_false_iff_not] at hy
    exact hother y hY hy
  · intro y hY
    by_cases hy : y = x
    · subst hy; exact g3
    · rw [hother y hY hy]; exact .refl
  · intro τ hτ hd y hY
    by_cases hy : y = x
    · subst hy; exact (g4 τ hτ).2 hd
    · rw [hother y hY hy]
  · intro cut τ η η' hfit hd hsv hvis hrun
    simp only [Option.some.injEq] at hrun
    subst hrun
    have hτ := hfit.sound hst.keeps.wf
    refine ⟨?_, ?_, hsv.arr, hsv.dw⟩
    · intro y v hY hv
      by_cases hy : y = x
      · subst hy
        simp only [Env.set, if_true, Option.map_eq_some_iff] at hv
        obtain ⟨v0, hv0, rfl⟩ := hv
        have hsem : sem τ raw = some v0 :=
          rhs_ba hK hw hf hc (hfit.back hK (hst.keeps.carries hw)).arrays hr h2
            (fun p'' hp'' => by rw [h3] at hp''; cases hp''; exact K.A.dec_path hτ h1 hd) hsv hvis hv0
        have hrn0 : K.s0.terms.has rn = false := by
          cases hq : K.s0.terms.has rn with
          | false => rfl
          | true =>
            rw [Dict.has_eq] at hq
            obtain ⟨t0, ht0⟩ := Option.isSome_iff_exists.mp hq
            rw [Dict.has_eq, hw.ext _ _ ht0] at h5
            cases h5
        have hrn := hfit.inter rn hrn0 b (by rw [h8]; simp) v0 (by rw [h9]; exact hsem)
        obtain ⟨t0, ht0, -⟩ := hK.decl y hX
        have : t0 = t := by
          have := hw.ext _ _ ht0
          rw [h6] at this; cases this; rfl
        subst this
        have hsch : sched τ (s'.treeOf y) = some (some (fitTo K.s0.terms cut y v0)) := by
          rw [(g4 τ hτ).1 hd]
          simp only [fitTo, h7] at hrn
          simp only [fitTo, ht0, sched, sem, hrn]
          rfl
        simp only [valOf, hsch]
        rfl
      · simp only [Env.set, if_neg hy] at hv
        rw [hother y hY hy]
        exact hsv.val y v hY hv
    · intro m hm
      have : m ≠ x := by rintro rfl; exact hm hX
      simp only [Env.set, if_neg this]
      exact hsv.other m hm
  · intro y hY
    by_cases hy : y = x
    · subst hy
      have : σ' y = .matched := by
        split at hchk
        · cases hchk
        · exact (Option.some.inj hchk).symm
      rw [this]
      exact ⟨g1, rfl, g2⟩
    · rw [hother y hY hy]
      obtain ⟨k1, k2⟩ := hσ y hY
      simp only [if_neg hy, Option.some.injEq] at k1
      rw [← k1]; exact k2

/-! ### Sides and blocks -/

theorem side_good (hg : BaGood K vis asg chk run) (hw : BaWF K s) (hf : BaFr K s c) (o : Opened K s s1 c d p q) {σ σ' : ScopeChain → NbSt}
    (hσ : ∀ x, K.X x → chk x (σ x) = some (σ' x) ∧ NbInv K.A (σ x) q (s.treeOf x) none) (h : vis s1 = .ok s2) :
    SidesPost K s s2 c [d] (fun x => asg x = true) ∧ BaRes K s s2 c q asg run := by
  obtain ⟨h1, h2, -⟩ := hg s1 s2 d q σ σ' (o.tab.wf hw) (o.fr hf) o.inner o.cur (fun x hX => by rw [o.tab.treeOf]; exact hσ x hX) h
  exact ⟨side_post o h1, h2.opened o⟩

/-- Copying completes a statement. -/
theorem close_good (hK : K.OK) (hw : BaWF K s) (hf : BaFr K s c) (hc : BaChain K s.frames c p) (hs : SidesPost K s s' c fs (fun x => asg x = true))
    (hr : BaRes K s s' c p asg run) (hcur : s'.current = s.current) (h : fs.foldlM (fun (st : BV) f => st.copyBlocking f c) s' = .ok s'') :
    BaStep K s s'' c (fun x => asg x = true) ∧ BaRes K s s'' c p asg run := by
  obtain ⟨h1, ⟨h2, h3, h4⟩, h5⟩ := step_of_sides hw hf hc hs hcur h
  exact ⟨h1, hr.right hK hs.keeps.asgX ⟨hs.keeps.wf, fun n t ht => by rw [h2]; exact ht, fun n _ _ => by rw [h3], h4⟩ h5⟩

theorem BaStep.labelled {asg : ScopeChain → Prop} (ht : TabEq s s1) (hfr : s1.frames = s.frames) (hcur : s1.current = s.current) (h : BaStep K s1 s' c asg) :
    BaStep K s s' c asg := by
  have he : s1.ent = s.ent := by funext c x; simp only [BV.ent, hfr]
  refine ⟨?_, h.cur.trans hcur, ?_, ?_, ?_, ?_⟩
  · have := h.keeps.left ht
    rw [he] at this
    exact this
  · rw [← hfr]; exact h.frm
  · rw [← hfr]; exact h.own
  · rw [← he]; exact h.ent0
  · rw [← he, ← ht.objs]; exact h.ent1

theorem BaRes.current (hK : K.OK) (hX : ∀ x, asg x = true → K.X x) (hw : BaWF K s') (h : BaRes K s s' c q asg run) (d : ScopeChain) :
    BaRes K s { s' with current := d } c q asg run :=
  h.right hK hX ((TabEq.current s' d).carries hw) (fun x _ => (TabEq.current s' d).treeOf x)

/-- The state of the check on entering a side, and on the other side. -/
def enterSt (σ : ScopeChain → NbSt) (x : ScopeChain) : NbSt := (σ x).enter.getD .fresh

/-- The state of the check on entering the other side. -/
def otherSt (asg : ScopeChain → Bool) (σ : ScopeChain → NbSt) (x : ScopeChain) : NbSt :=
  (if asg x then (σ x).other else (σ x).enter).getD .fresh

/-- The state of the check after a statement. -/
def nextSt (chk : ScopeChain → NbSt → Option NbSt) (σ : ScopeChain → NbSt) (x : ScopeChain) : NbSt := (chk x (σ x)).getD .fresh

theorem getD_eq {o : Option NbSt} {e : NbSt} (h : o = some e) : o = some (o.getD .fresh) := by rw [h]; rfl

/-- An if statement. -/
theorem if_good (hK : K.OK) {e : Ex} (he : e.flat = true ∧ e.noCond = true ∧ e.allNames K.Q = true) {noT noF : Bool} {vt vf : BV → Py BV}
    {chkT chkF : ScopeChain → NbSt → Option NbSt} (hT : BaGood K vt asgT chkT runT) (hF : BaGood K vf asgF chkF runF)
    (h0T : noT = true → (∀ x, asgT x = false) ∧ ∀ fit η η', runT fit η = some η' → η' = η)
    (h0F : noF = true → (∀ x, asgF x = false) ∧ ∀ fit η η', runF fit η = some η' → η' = η) :
    BaGood K (Stmt.visitIf e noT vt noF vf) (fun x => asgT x || asgF x)
      (fun x st => do
        let e1 ← st.enter
        let _ ← chkT x e1
        let e2 ← (if asgT x then st.other else st.enter)
        let _ ← chkF x e2
        some (if asgT x || asgF x then st.after else st))
      (fun fit η => do
        let b ← exVal η K.res e
        if b.1 ≠ 0 then runT fit η else runF fit η) := by
  intro s s' c p σ σ' hw hf hc hcur hσ h
  have hA : K.A.Norm := flatA_norm K.s0 K.mod
  have hp := hc.exPath
  have hσ1 : ∀ x, K.X x → (σ x).enter = some (enterSt σ x) ∧ chkT x (enterSt σ x) = some (nextSt chkT (enterSt σ) x) ∧
      (if asgT x then (σ x).other else (σ x).enter) = some (otherSt asgT σ x) ∧ chkF x (otherSt asgT σ x) = some (nextSt chkF (otherSt asgT σ) x) ∧
      σ' x = (if asgT x || asgF x then (σ x).after else σ x) := by
    intro x hX
    have := (hσ x hX).1
    simp only [Option.bind_eq_bind, Option.bind_eq_some_iff, Option.some.injEq] at this
    obtain ⟨e1, k1, e1', k2, e2, k3, e2', k4, k5⟩ := this
    have a1 : enterSt σ x = e1 := by simp only [enterSt, k1]; rfl
    have a2 : otherSt asgT σ x = e2 := by simp only [otherSt, k3]; rfl
    refine ⟨by rw [a1]; exact k1, ?_, by rw [a2]; exact k3, ?_, k5.symm⟩
    · simp only [nextSt, a1, k2]; rfl
    · simp only [nextSt, a2, k4]; rfl
  have fin : BaStep K s s' c (fun x => (asgT x || asgF x) = true) ∧ BaRes K s s' c p (fun x => asgT x || asgF x) (fun fit η => do
        let b ← exVal η K.res e
        if b.1 ≠ 0 then runT fit η else runF fit η) := by
    simp only [Stmt.visitIf] at h
    cases noT with
    | true =>
      simp only [if_true] at h
      cases noF with
      | false => simp at h
      | true =>
        simp only [if_true, ok_inj] at h
        subst h
        obtain ⟨t1, t2⟩ := h0T rfl
        obtain ⟨f1, f2⟩ := h0F rfl
        refine ⟨(BaStep.refl hw hc).congr (fun x => by simp [t1, f1]), (BaRes.skip (fun x hX => (hσ x hX).2.1) ?_).weaken (fun x => by simp [t1, f1]) (fun _ _ _ h => h)⟩
        intro fit η η' hr
        simp only [Option.bind_eq_bind, Option.bind_eq_some_iff] at hr
        obtain ⟨b, -, hr⟩ := hr
        split at hr
        · exact t2 _ _ _ hr
        · exact f2 _ _ _ hr
    | false =>
      simp only [Bool.false_eq_true, if_false, bind_ok] at h
      obtain ⟨⟨l, sl⟩, hl, s1, h1, h⟩ := h
      obtain ⟨tl, fl, cl⟩ := label_tab hl
      have hwl := tl.wf hw
      have hfl := BaFr.tab tl fl hf
      have hcl : BaChain K sl.frames c p := by rw [fl]; exact hc
      have hcurl : sl.current = c := cl.trans hcur
      simp only [BV.side, bind_ok, ok_inj] at h1
      obtain ⟨a1, ha1, a2, ha2, a3, ha3, e1⟩ := h1
      have oT := openIf_ba hcl hcurl he ha1 ha2
      obtain ⟨pT, rT⟩ := side_good hT hwl hfl oT (σ := enterSt σ) (σ' := nextSt chkT (enterSt σ)) (fun x hX => by
        obtain ⟨k1, k2, -⟩ := hσ1 x hX
        refine ⟨k2, ?_⟩
        rw [tl.treeOf]
        exact enter_inv hA hp he.2.1 k1 (hσ x hX).2) ha3
      have rT := rT.current hK pT.keeps.asgX pT.keeps.wf sl.current
      have pT := pT.current sl.current
      rw [e1] at pT rT
      have cur1 : s1.current = c := by rw [← e1]; exact hcurl
      suffices hh : BaStep K sl s' c (fun x => (asgT x || asgF x) = true) ∧ BaRes K sl s' c p (fun x => asgT x || asgF x) (fun fit η => do
          let b ← exVal η K.res e
          if b.1 ≠ 0 then runT fit η else runF fit η) from ⟨hh.1.labelled tl fl cl, hh.2.labelled tl fl⟩
      cases noF with
      | true =>
        simp only [if_true] at h
        obtain ⟨f1, f2⟩ := h0F rfl
        have rF : BaRes K s1 s1 c (p ++ [(e, false)]) asgF runF := (BaRes.skip rT.norm f2).weaken (fun x => f1 x) (fun _ _ _ h => h)
        have pF : SidesPost K s1 s1 c [] (fun x => asgF x = true) := (SidesPost.none pT.keeps.wf).congr (fun x => by simp [f1])
        have pTF := (pT.trans pF (by simp)).congr (asg' := fun x => (asgT x || asgF x) = true) (fun x => by simp)
        refine close_good hK hwl hfl hcl pTF (if_res hK hfl he.2.2 pT rT pF rF) (cur1.trans hcurl.symm) ?_
        simp only [List.append_nil, List.foldlM_cons, List.foldlM_nil, Bool.not_false] at h ⊢
        rw [hcur] at h
        rw [h]
        rfl
      | false =>
        simp only [Bool.false_eq_true, if_false, bind_ok] at h
        obtain ⟨s2, h2, s3, h3, h4⟩ := h
        simp only [BV.side, bind_ok, ok_inj] at h2
        obtain ⟨b1, hb1, b2, hb2, b3, hb3, e2⟩ := h2
        have oF := openIf_ba (pT.chain hcl) cur1 he hb1 hb2
        obtain ⟨pF, rF⟩ := side_good hF pT.keeps.wf (pT.fr hfl) oF (σ := otherSt asgT σ) (σ' := nextSt chkF (otherSt asgT σ)) (fun x hX => by
          obtain ⟨-, -, k3, k4, -⟩ := hσ1 x hX
          refine ⟨k4, ?_⟩
          have hi := (hσ x hX).2
          rw [← tl.treeOf] at hi
          exact else_inv hA hp he.2.1 k3 hi (rT.norm x hX) (rT.at_ x) (rT.same x hX) (rT.sib x hX)) hb3
        have rF := rF.current hK pF.keeps.asgX pF.keeps.wf s1.current
        have pF := pF.current s1.current
        rw [e2] at pF rF
        have cur2 : s2.current = c := by rw [← e2]; exact cur1
        have pTF := (pT.trans pF (by
          intro d hd d' hd' hp
          simp only [List.mem_singleton] at hd hd'
          subst hd hd'
          have := hp.eq_of_length (by simp)
          simp [toELSE_ne] at this)).congr (asg' := fun x => (asgT x || asgF x) = true) (fun x => by simp)
        refine close_good hK hwl hfl hcl pTF (if_res hK hfl he.2.2 pT rT pF rF) (cur2.trans hcurl.symm) ?_
        simp only [List.cons_append, List.nil_append, List.foldlM_cons, List.foldlM_nil]
        rw [hcur] at h3 h4
        rw [h3, ok_bind, h4]
        rfl
  refine ⟨fin.1, fin.2, fun x hX => ?_⟩
  rw [(hσ1 x hX).2.2.2.2]
  exact fin.2.after hX (hσ x hX).2

theorem block_good (hK : K.OK) {name : Option Str} (hg : BaGood K vis asg chk run) :
    BaGood K (Stmt.visitBlock name vis) asg (fun x st => do
        let _ ← chk x st
        some (if asg x then st.after else st)) run := by
  intro s s' c p σ σ' hw hf hc hcur hσ h
  have hσ1 : ∀ x, K.X x → chk x (σ x) = some (nextSt chk σ x) ∧ σ' x = (if asg x then (σ x).after else σ x) := by
    intro x hX
    have := (hσ x hX).1
    simp only [Option.bind_eq_bind, Option.bind_eq_some_iff, Option.some.injEq] at this
    obtain ⟨e1, k1, k2⟩ := this
    exact ⟨by simp only [nextSt, k1]; rfl, k2.symm⟩
  have fin : BaStep K s s' c (fun x => asg x = true) ∧ BaRes K s s' c p asg run := by
    simp only [Stmt.visitBlock, bind_ok] at h
    obtain ⟨⟨l, sl⟩, hl, s1, h1, s2, h2, f, hf3, h⟩ := h
    have hlab : TabEq s sl ∧ sl.frames = s.frames ∧ sl.current = s.current := by
      cases name with
      | some n =>
        simp only [BV.blockLabel, ok_inj, Prod.mk.injEq] at hl
        obtain ⟨-, rfl⟩ := hl
        exact ⟨.refl, rfl, rfl⟩
      | none => exact label_tab hl
    obtain ⟨tl, fl, cl⟩ := hlab
    have hwl := tl.wf hw
    have hfl := BaFr.tab tl fl hf
    have hcl : BaChain K sl.frames c p := by rw [fl]; exact hc
    have hcurl : sl.current = c := cl.trans hcur
    obtain ⟨o, -⟩ := enter_ba hcl hcurl (fun _ => ⟨by simp, by simp⟩) (fun a h => by cases h) h1
    simp only [pathStep, List.append_nil] at o
    obtain ⟨pB, rB⟩ := side_good hg hwl hfl o (σ := σ) (σ' := nextSt chk σ) (fun x hX => by
      rw [tl.treeOf]
      exact ⟨(hσ1 x hX).1, (hσ x hX).2⟩) h2
    have rB := rB.current hK pB.keeps.asgX pB.keeps.wf s.current
    have pB := pB.current s.current
    obtain ⟨g, hg1, hg2⟩ := (pB.chain hcl).frame
    have hf3 := frame_get hf3
    rw [hcur] at hf3
    rw [← hcur] at hg1
    have : g = f := by
      rw [hcur] at hg1
      have e : ({ s2 with current := c } : BV).frames.get? c = ({ s2 with current := s.current } : BV).frames.get? c := rfl
      first | (rw [hf3] at hg1; exact (Option.some.inj hg1).symm) | (rw [e] at hf3; rw [hf3] at hg1; exact (Option.some.inj hg1).symm)
    subst this
    rw [if_pos hg2.always] at h
    obtain ⟨q1, q2⟩ := close_good (s'' := s') hK hwl hfl hcl pB rB cl.symm (by
      simp only [List.foldlM_cons, List.foldlM_nil]
      rw [← hcur, h]
      rfl)
    exact ⟨q1.labelled tl fl cl, q2.labelled tl fl⟩
  refine ⟨fin.1, fin.2, fun x hX => ?_⟩
  rw [(hσ1 x hX).2]
  exact fin.2.after hX (hσ x hX).2

end

end Pyv
