import Verif.Props.BaGood
import Verif.Props.BaProps
/-
  C74: always blocks with blocking assignments.
-/
namespace Pyv

section
variable {K : BaEnv} {s s' s1 s2 s'' : BV} {c d : ScopeChain} {p q : ExPath}

/-- The items of a case statement in order, `default` taken as always matching. -/
def baSeq (fit : ScopeChain → Int × Int → Int × Int) (res : Str → Option ScopeChain) (v : Int) :
    List (Option (List Ex)) → List Stmt → Env → Option Env
  | some es :: cs, b :: bs, η => do
    let hit ← itemHit η res v es
    if hit then baRun fit res b η else baSeq fit res v cs bs η
  | none :: _, b :: _, η => baRun fit res b η
  | _, _, η => some η

theorem chosen_baSeq {fit} {res} {η η' : Env} {v : Int} {cs : List (Option (List Ex))} {bs : List Stmt} {i}
    (hd : defaultLast cs = true) (hl : cs.length = bs.length) (hi : chosen η res v cs = some i)
    (h : (match (generalizing := false) i with | none => some η | some i => baRunNth fit res bs i η) = some η') :
    baSeq fit res v cs bs η = some η' := by
  induction cs generalizing bs i with
  | nil =>
    simp only [chosen, firstHit, defaultItem, Option.bind_eq_bind, Option.bind_some, Option.some.injEq] at hi
    subst hi
    simpa [baSeq] using h
  | cons c cs ih =>
    cases bs with
    | nil => simp at hl
    | cons b bs =>
      cases c with
      | none =>
        have : cs = [] := by
          cases cs with
          | nil => rfl
          | cons => simp [defaultLast] at hd
        subst this
        simp only [chosen, firstHit, defaultItem, Option.bind_eq_bind, Option.bind_some, Option.some.injEq] at hi
        subst hi
        simpa [baSeq, baRunNth] using h
      | some es =>
        simp only [baSeq, Option.bind_eq_bind]
        simp only [chosen, firstHit, Option.bind_eq_bind, Option.bind_eq_some_iff] at hi
        obtain ⟨m, ⟨hit, hhit, hm⟩, hi⟩ := hi
        rw [hhit]
        simp only [Option.bind_some]
        cases hit
        · simp only [Bool.false_eq_true, if_false] at hm ⊢
          rw [firstHit_shift] at hm
          simp only [Option.map_eq_some_iff] at hm
          obtain ⟨m0, hm0, rfl⟩ := hm
          have hdl : defaultLast cs = true := by
            cases cs with
            | nil => rfl
            | cons => simpa [defaultLast] using hd
          cases m0 with
          | some j =>
            simp only [Option.map_some, Option.some.injEq] at hi
            subst hi
            exact ih hdl (by simpa using hl) (i := some j) (by simp [chosen, hm0]) h
          | none =>
            simp only [Option.map_none, defaultItem] at hi
            rw [defaultItem_shift] at hi
            simp only [Option.some.injEq] at hi
            refine ih hdl (by simpa using hl) (i := defaultItem cs 0) (by simp [chosen, hm0]) ?_
            cases hdi : defaultItem cs 0 with
            | none => rw [hdi] at hi; subst hi; exact h
            | some j => rw [hdi] at hi; subst hi; exact h
        · simp only [if_true, Option.some.injEq] at hm ⊢
          subst hm
          simp only [Option.some.injEq] at hi
          subst hi
          exact h

theorem caseCond_names {Q : Str → Bool} {comp e : Ex} {it : Option (List Ex)} (h1 : comp.allNames Q = true) (h2 : ∀ es, it = some es → Ex.allNamesL Q es = true)
    (h : caseCond comp it = .ok e) : e.allNames Q = true := by
  cases it with
  | none => simp only [caseCond, ok_inj] at h; subst h; rfl
  | some es =>
    have h2 := h2 es rfl
    cases es with
    | nil => simp [caseCond] at h
    | cons a as =>
      simp only [caseCond, ok_inj] at h
      subst h
      simp only [Ex.allNamesL, Bool.and_eq_true] at h2
      have : ∀ (as : List Ex) (z : Ex), z.allNames Q = true → Ex.allNamesL Q as = true → (as.foldl (fun a e => .bin .lor a (.bin .eq comp e)) z).allNames Q = true := by
        intro as
        induction as with
        | nil => intro z hz _; exact hz
        | cons a as ih =>
          intro z hz ha
          simp only [Ex.allNamesL, Bool.and_eq_true] at ha
          exact ih _ (by simp [Ex.allNames, hz, h1, ha.1]) ha.2
      exact this as _ (by simp [Ex.allNames, h1, h2.1]) h2.2

/-- The statement is visited as `baRun` says. -/
abbrev StGood (K : BaEnv) (st : Stmt) : Prop :=
  BaGood K st.visit (fun x => st.baAssigns K.res x) (fun x => st.baChk K.res x) (fun fit => baRun fit K.res st)

theorem cases_baGood (hK : K.OK) {comp : Ex} (hcomp : comp.flat = true ∧ comp.noCond = true ∧ comp.allNames K.Q = true) (bs : List Stmt)
    (hb : ∀ st ∈ bs, StGood K st) :
    ∀ cs s s' fs c p (σ : ScopeChain → NbSt), cs.length = bs.length → itemsFlat cs = true → itemsNoCond cs = true → itemsNames K.Q cs = true →
      BaWF K s → BaFr K s c → BaChain K s.frames c p → s.current = c →
      (∀ x, K.X x → Stmt.baChkCases K.res x bs (σ x) = true ∧ NbInv K.A (σ x) p (s.treeOf x) none) →
      Stmt.visitCases comp cs bs s = .ok (s', fs) →
      SidesPost K s s' c fs (fun x => Stmt.baAssignsL K.res x bs = true) ∧
      BaRes K s s' c p (fun x => Stmt.baAssignsL K.res x bs) (fun fit η => (exVal η K.res comp).bind (fun v => baSeq fit K.res v.1 cs bs η)) := by
  have hA : K.A.Norm := flatA_norm K.s0 K.mod
  induction bs with
  | nil =>
    intro cs s s' fs c p σ hl _ _ _ hw hf hc hcur hσ h
    have : cs = [] := by simpa using hl
    subst this
    simp only [Stmt.visitCases, ok_inj, Prod.mk.injEq] at h
    obtain ⟨rfl, rfl⟩ := h
    refine ⟨(SidesPost.none hw).congr (fun x => by simp [Stmt.baAssignsL]), (BaRes.skip (fun x hX => (hσ x hX).2.1) ?_).weaken (fun x => by simp [Stmt.baAssignsL]) (fun _ _ _ h => h)⟩
    intro fit η η' h
    simp only [Option.bind_eq_some_iff, baSeq, Option.some.injEq] at h
    obtain ⟨_, _, rfl⟩ := h
    rfl
  | cons b bs ih =>
    intro cs s s' fs c p σ hl hfl hnc hnm hw hf hc hcur hσ h
    cases cs with
    | nil => simp at hl
    | cons it cs =>
      have hfl' : (∀ es, it = some es → Ex.flatL es = true) ∧ itemsFlat cs = true := by
        cases it with
        | none => exact ⟨fun _ h => (by cases h), by simpa [itemsFlat] using hfl⟩
        | some es => simp only [itemsFlat, Bool.and_eq_true] at hfl; exact ⟨fun _ h => (by cases h; exact hfl.1), hfl.2⟩
      have hnc' : itemsNoCond [it] = true ∧ itemsNoCond cs = true := by
        cases it with
        | none => exact ⟨rfl, by simpa [itemsNoCond] using hnc⟩
        | some es => simp only [itemsNoCond, Bool.and_eq_true] at hnc ⊢; exact ⟨⟨hnc.1, trivial⟩, hnc.2⟩
      have hnm' : (∀ es, it = some es → Ex.allNamesL K.Q es = true) ∧ itemsNames K.Q cs = true := by
        cases it with
        | none => exact ⟨fun _ h => (by cases h), by simpa [itemsNames] using hnm⟩
        | some es => simp only [itemsNames, Bool.and_eq_true] at hnm; exact ⟨fun _ h => (by cases h; exact hnm.1), hnm.2⟩
      have hσ1 : ∀ x, K.X x → (σ x).enter = some (enterSt σ x) ∧ b.baChk K.res x (enterSt σ x) = some (nextSt (fun x => b.baChk K.res x) (enterSt σ) x) ∧
          (if b.baAssigns K.res x then (σ x).other else (σ x).enter) = some (otherSt (fun x => b.baAssigns K.res x) σ x) ∧
          Stmt.baChkCases K.res x bs (otherSt (fun x => b.baAssigns K.res x) σ x) = true := by
        intro x hX
        have := (hσ x hX).1
        rw [Stmt.baChkCases] at this
        cases k1 : (σ x).enter with
        | none => rw [k1] at this; cases this
        | some e1 =>
          have a1 : enterSt σ x = e1 := by simp only [enterSt, k1]; rfl
          cases k3 : (if b.baAssigns K.res x then (σ x).other else (σ x).enter) with
          | none =>
            rw [k1] at this k3
            simp only [k3, Bool.and_false] at this
            cases this
          | some e2 =>
            have a2 : otherSt (fun x => b.baAssigns K.res x) σ x = e2 := by simp only [otherSt, k3]; rfl
            have k3' := k3
            rw [k1] at this k3'
            simp only [k3', Bool.and_eq_true] at this
            obtain ⟨e1', k2⟩ := Option.isSome_iff_exists.mp this.1
            refine ⟨by rw [a1], ?_, by rw [a2]; first | exact k3 | exact k3', by rw [a2]; exact this.2⟩
            simp only [nextSt, a1, k2]; rfl
      have hp := hc.exPath
      simp only [Stmt.visitCases, bind_ok] at h
      obtain ⟨e, he, ⟨l, sl⟩, hl', a1, ha1, a2, ha2, a3, ha3, h⟩ := h
      have hee : e.flat = true ∧ e.noCond = true ∧ e.allNames K.Q = true :=
        ⟨caseCond_flat hcomp.1 hfl'.1 he, caseCond_noCond hcomp.2.1 hnc'.1 he, caseCond_names hcomp.2.2 hnm'.1 he⟩
      obtain ⟨tl, fl, cl⟩ := label_tab hl'
      have hwl := tl.wf hw
      have hfrl := BaFr.tab tl fl hf
      have hcl : BaChain K sl.frames c p := by rw [fl]; exact hc
      have hcurl : sl.current = c := cl.trans hcur
      simp only [hcurl] at h
      have oT := openIf_ba hcl hcurl hee ha1 ha2
      obtain ⟨pT, rT⟩ := side_good (hb b (by simp)) hwl hfrl oT (σ := enterSt σ) (σ' := nextSt (fun x => b.baChk K.res x) (enterSt σ)) (fun x hX => by
        obtain ⟨k1, k2, -⟩ := hσ1 x hX
        refine ⟨k2, ?_⟩
        rw [tl.treeOf]
        exact enter_inv hA hp hee.2.1 k1 (hσ x hX).2) ha3
      have rT := rT.current hK pT.keeps.asgX pT.keeps.wf c
      have pT := pT.current c
      -- the run
      have hrun : ∀ (runF : BaRunner), (∀ fit η η', (∃ v, exVal η K.res comp = some v ∧ baSeq fit K.res v.1 cs bs η = some η') → runF fit η = some η') →
          ∀ fit η η', (exVal η K.res comp).bind (fun v => baSeq fit K.res v.1 (it :: cs) (b :: bs) η) = some η' →
            (do
              let w ← exVal η K.res e
              if w.1 ≠ 0 then baRun fit K.res b η else runF fit η) = some η' := by
        intro runF hF fit η η' hr
        obtain ⟨v, hv, hr⟩ := Option.bind_eq_some_iff.mp hr
        have hval := caseCond_val hv he
        cases it with
        | none =>
          obtain ⟨w, hw1, hw2⟩ := hval
          simp only [hw1, Option.bind_eq_bind, Option.bind_some]
          rw [if_pos hw2]
          simpa [baSeq] using hr
        | some es =>
          simp only [baSeq, Option.bind_eq_bind, Option.bind_eq_some_iff] at hr
          obtain ⟨hit, hh, hr⟩ := hr
          obtain ⟨w, hw1, hw2⟩ := hval hit hh
          simp only [hw1, Option.bind_eq_bind, Option.bind_some]
          cases hit with
          | true =>
            simp only [decide_eq_true_eq] at hw2
            rw [if_pos hw2]
            simpa using hr
          | false =>
            simp only [decide_eq_false_iff_not] at hw2
            rw [if_neg hw2]
            exact hF fit η η' ⟨v, hv, by simpa using hr⟩
      suffices hh : SidesPost K sl s' c fs (fun x => Stmt.baAssignsL K.res x (b :: bs) = true) ∧
          BaRes K sl s' c p (fun x => Stmt.baAssignsL K.res x (b :: bs)) (fun fit η => (exVal η K.res comp).bind (fun v => baSeq fit K.res v.1 (it :: cs) (b :: bs) η)) by
        obtain ⟨k1, k2⟩ := hh
        refine ⟨⟨k1.keeps.left tl, k1.under, fun c' hc' => by rw [k1.frm c' hc', fl], fun e he => ?_, k1.last⟩, k2.labelled tl fl⟩
        obtain ⟨m1, m2, m3⟩ := k1.ops e he
        exact ⟨m1, by rw [← tl.objs]; exact m2, m3⟩
      cases bs with
      | nil =>
        have hcs : cs = [] := by simpa using hl
        subst hcs
        simp only [List.isEmpty_nil, if_true, ok_inj, Prod.mk.injEq] at h
        obtain ⟨rfl, rfl⟩ := h
        have rF : BaRes K { a3 with current := c } { a3 with current := c } c (p ++ [(e, false)]) (fun _ => false) (fun _ η => some η) :=
          BaRes.skip rT.norm (fun _ _ _ h => (Option.some.inj h).symm)
        have pF : SidesPost K { a3 with current := c } { a3 with current := c } c [] (fun x => (fun _ : ScopeChain => false) x = true) :=
          (SidesPost.none pT.keeps.wf).congr (fun x => by simp)
        refine ⟨pT.congr (fun x => by simp [Stmt.baAssignsL]), (if_res hK hfrl hee.2.2 pT rT pF rF).weaken (fun x => by simp [Stmt.baAssignsL]) ?_⟩
        refine hrun _ ?_
        rintro fit η η' ⟨v, hv, h⟩
        simpa [baSeq] using h
      | cons b2 bs =>
        simp only [List.isEmpty_cons, Bool.false_eq_true, if_false, bind_ok, ok_inj] at h
        obtain ⟨b1, hb1, b2', hb2, ⟨s7, fs'⟩, h7, h⟩ := h
        simp only [Prod.mk.injEq] at h
        obtain ⟨rfl, rfl⟩ := h
        have oF := openIf_ba (pT.chain hcl) rfl hee hb1 hb2
        obtain ⟨pR, rR⟩ := ih (fun st hs => hb st (by simp only [List.mem_cons] at hs ⊢; exact .inr hs)) cs b2' s7 fs' _ _ (otherSt (fun x => b.baAssigns K.res x) σ)
          (by simpa using hl) hfl'.2 hnc'.2 hnm'.2 (oF.tab.wf pT.keeps.wf) (oF.fr (pT.fr hfrl)) oF.inner oF.cur (fun x hX => by
            obtain ⟨-, -, k3, k4⟩ := hσ1 x hX
            refine ⟨k4, ?_⟩
            rw [oF.tab.treeOf]
            have hi := (hσ x hX).2
            rw [← tl.treeOf] at hi
            exact else_inv hA hp hee.2.1 k3 hi (rT.norm x hX) (rT.at_ x) (rT.same x hX) (rT.sib x hX)) h7
        have pF := deeper_post oF pR
        have rF := rR.opened oF
        have pTF := (pT.trans pF (by
          intro d hd d' hd' hpre
          simp only [List.mem_singleton] at hd
          subst hd
          have hpre' : c ++ [(⟨toELSE l, .if_, none⟩ : ScopeLabel)] <+: c ++ [(⟨l, .if_, none⟩ : ScopeLabel)] := by
            rcases List.mem_cons.mp hd' with rfl | hd'
            · exact hpre
            · exact (pR.under d' hd').1.trans hpre
          have := hpre'.eq_of_length (by simp)
          simp [toELSE_ne] at this))
        refine ⟨pTF.congr (fun x => by simp [Stmt.baAssignsL]), (if_res hK hfrl hee.2.2 pT rT pF rF).weaken (fun x => by simp [Stmt.baAssignsL]) ?_⟩
        refine hrun _ ?_
        rintro fit η η' ⟨v, hv, h⟩
        simp only [hv, Option.bind_some]
        exact h

theorem list_baGood (hK : K.OK) {ss : List Stmt} (hb : ∀ st ∈ ss, StGood K st) :
    BaGood K (Stmt.visitList ss) (fun x => Stmt.baAssignsL K.res x ss) (fun x => Stmt.baChkList K.res x ss) (fun fit => baRunList fit K.res ss) := by
  induction ss with
  | nil =>
    intro s s' c p σ σ' hw hf hc hcur hσ h
    simp only [Stmt.visitList, ok_inj] at h
    subst h
    refine ⟨(BaStep.refl hw hc).congr (fun x => by simp [Stmt.baAssignsL]), (BaRes.skip (fun x hX => (hσ x hX).2.1) ?_).weaken (fun x => by simp [Stmt.baAssignsL]) (fun _ _ _ h => h), ?_⟩
    · intro fit η η' h
      simpa [baRunList] using h.symm
    · intro x hX
      obtain ⟨h1, h2⟩ := hσ x hX
      simp only [Stmt.baChkList, Option.some.injEq] at h1
      rw [← h1]; exact h2
  | cons st ss ih =>
    intro s s' c p σ σ' hw hf hc hcur hσ h
    simp only [Stmt.visitList, bind_ok] at h
    obtain ⟨s1, h1, h2⟩ := h
    have hσ1 : ∀ x, K.X x → st.baChk K.res x (σ x) = some (nextSt (fun x => st.baChk K.res x) σ x) ∧
        Stmt.baChkList K.res x ss (nextSt (fun x => st.baChk K.res x) σ x) = some (σ' x) := by
      intro x hX
      have := (hσ x hX).1
      simp only [Stmt.baChkList, Option.bind_eq_bind, Option.bind_eq_some_iff] at this
      obtain ⟨e1, k1, k2⟩ := this
      have a1 : nextSt (fun x => st.baChk K.res x) σ x = e1 := by simp only [nextSt, k1]; rfl
      exact ⟨by rw [a1]; exact k1, by rw [a1]; exact k2⟩
    obtain ⟨p1, r1, i1⟩ := hb st (by simp) s s1 c p σ (nextSt (fun x => st.baChk K.res x) σ) hw hf hc hcur (fun x hX => ⟨(hσ1 x hX).1, (hσ x hX).2⟩) h1
    obtain ⟨p2, r2, i2⟩ := ih (fun st hs => hb st (by simp [hs])) s1 s' c p (nextSt (fun x => st.baChk K.res x) σ) σ' p1.keeps.wf (p1.fr hf) (p1.chain hc) (p1.cur.trans hcur)
      (fun x hX => ⟨(hσ1 x hX).2, i1 x hX⟩) h2
    refine ⟨(p1.trans p2).congr (fun x => by simp [Stmt.baAssignsL]), (BaRes.trans hK hw hf hc p1 p2 r1 r2).weaken (fun x => by simp [Stmt.baAssignsL]) ?_, i2⟩
    intro fit η η' h
    simp only [baRunList, Option.bind_eq_bind] at h
    exact h

theorem baPlainL_iff {Q D : Str → Bool} {ss : List Stmt} : Stmt.baPlainL Q D ss = true ↔ ∀ st ∈ ss, st.baPlain Q D = true := by
  induction ss with
  | nil => simp [Stmt.baPlainL]
  | cons a as ih => simp [Stmt.baPlainL, ih]

theorem baAssignsL_iff {res} {x} {ss : List Stmt} : Stmt.baAssignsL res x ss = true ↔ ∃ st ∈ ss, st.baAssigns res x = true := by
  induction ss with
  | nil => simp [Stmt.baAssignsL]
  | cons a as ih => simp [Stmt.baAssignsL, ih]

/-- Every covered statement is visited as its specification says. -/
theorem visit_baGood (hK : K.OK) {D : Str → Bool} (hD : ∀ n, D n = true → ∃ x, K.res n = some x) (st : Stmt) :
    st.baPlain K.Q D = true → (∀ x, st.baAssigns K.res x = true → K.X x) → StGood K st := by
  induction st using Stmt.ind with
  | skip =>
    intro _ _ s s' c p σ σ' hw hf hc hcur hσ h
    simp only [Stmt.visit, ok_inj] at h
    subst h
    refine ⟨(BaStep.refl hw hc).congr (fun x => by simp [Stmt.baAssigns]), (BaRes.skip (fun x hX => (hσ x hX).2.1) ?_).weaken (fun x => by simp [Stmt.baAssigns]) (fun _ _ _ h => h), ?_⟩
    · intro fit η η' h
      simpa [baRun] using h.symm
    · intro x hX
      obtain ⟨h1, h2⟩ := hσ x hX
      simp only [Stmt.baChk, Option.some.injEq] at h1
      rw [← h1]; exact h2
  | nb l r => intro h; simp [Stmt.baPlain] at h
  | ba l r =>
    intro h hX
    have hl : ∃ n, l = .ident [] n ∧ D n = true ∧ r.flat = true := by
      unfold Stmt.baPlain at h
      split at h
      all_goals first | (cases h; done) | skip
      all_goals first
        | (rename_i heq; cases heq; simp only [Bool.and_eq_true] at h; exact ⟨_, rfl, h.1, h.2⟩)
        | (rename_i heq; cases heq)
        | (rename_i heq _; cases heq)
    obtain ⟨n, rfl, hn, hr⟩ := hl
    obtain ⟨x, hx⟩ := hD n hn
    have hXx : K.X x := hX x (by simp [Stmt.baAssigns, isWhole, hx])
    have := ba_good hK hr hx hXx
    have e1 : (fun y => (Stmt.ba (.ident [] n) r).baAssigns K.res y) = fun y => decide (y = x) := by
      funext y
      simp only [Stmt.baAssigns, isWhole, hx, Option.some.injEq]
      exact decide_eq_decide.mpr eq_comm
    have e2 : (fun y => (Stmt.ba (.ident [] n) r).baChk K.res y) = fun y st => if y = x then (if st = .deep then none else some .matched) else some st := by
      funext y st
      simp only [Stmt.baChk, isWhole, hx, Option.some.injEq, decide_eq_true_eq]
      by_cases h : y = x
      · subst h; simp
      · rw [if_neg h, if_neg (fun h' => h h'.symm)]
    have e3 : (fun fit => baRun fit K.res (Stmt.ba (.ident [] n) r)) = fun fit η => some (η.set x ((exVal η K.res r).map (fit x))) := by
      funext fit η
      simp only [baRun, hx, Option.bind_eq_bind, Option.bind_some]
    show BaGood K _ _ _ _
    rw [e1, e2, e3]
    exact this
  | ifs e t f iht ihf =>
    intro h hX
    simp only [Stmt.baPlain, Bool.and_eq_true] at h
    obtain ⟨⟨⟨⟨h1, h2⟩, h3⟩, h4⟩, h5⟩ := h
    have gT := iht h4 (fun x hx => hX x (by simp [Stmt.baAssigns, hx]))
    have gF := ihf h5 (fun x hx => hX x (by simp [Stmt.baAssigns, hx]))
    have key : ∀ st : Stmt, st.isSkip = true → (∀ x, st.baAssigns K.res x = false) ∧ ∀ fit η η', baRun fit K.res st η = some η' → η' = η := by
      intro st hst
      cases st <;> simp [Stmt.isSkip] at hst
      refine ⟨fun x => rfl, ?_⟩
      intro fit η η' h
      simpa [baRun] using h.symm
    have := if_good hK ⟨h1, h2, h3⟩ (noT := t.isSkip) (noF := f.isSkip) gT gF (key t) (key f)
    have e0 : (Stmt.ifs e t f).visit = Stmt.visitIf e t.isSkip t.visit f.isSkip f.visit := by funext s; simp only [Stmt.visit]
    have e1 : (fun y => (Stmt.ifs e t f).baAssigns K.res y) = fun y => t.baAssigns K.res y || f.baAssigns K.res y := by
      funext y; simp only [Stmt.baAssigns]
    have e3 : (fun fit => baRun fit K.res (Stmt.ifs e t f)) = (fun fit η => do
        let b ← exVal η K.res e
        if b.1 ≠ 0 then baRun fit K.res t η else baRun fit K.res f η) := by
      funext fit η
      simp only [baRun]
    show BaGood K _ _ _ _
    rw [e0, e1, e3]
    convert this using 1
    funext y st
    simp only [Stmt.baChk]
  | cases k comp cs bs ih =>
    intro h hX
    simp only [Stmt.baPlain, Bool.and_eq_true, Bool.or_eq_true, decide_eq_true_eq] at h
    obtain ⟨⟨⟨⟨⟨⟨⟨⟨⟨hk, h1⟩, h2⟩, h3⟩, h4⟩, h5⟩, h6⟩, h7⟩, h8⟩, h9⟩ := h
    have hb : ∀ st ∈ bs, StGood K st := fun st hs => ih st hs (baPlainL_iff.mp h9 st hs)
      (fun x hx => hX x (by simp only [Stmt.baAssigns]; exact baAssignsL_iff.mpr ⟨st, hs, hx⟩))
    intro s s' c p σ σ' hw hf hc hcur hσ h
    have hσ1 : ∀ x, K.X x → Stmt.baChkCases K.res x bs (σ x) = true ∧ σ' x = (if Stmt.baAssignsL K.res x bs then (σ x).after else σ x) := by
      intro x hXx
      have := (hσ x hXx).1
      simp only [Stmt.baChk] at this
      split at this
      · rename_i hq; exact ⟨hq, (Option.some.inj this).symm⟩
      · cases this
    have hv : ∃ s1 fs, Stmt.visitCases comp cs bs s = .ok (s1, fs) ∧ fs.foldlM (fun (st : BV) f => st.copyBlocking f s.current) { s1 with current := s.current } = .ok s' := by
      rcases hk with rfl | rfl
      · simp only [Stmt.visit, bind_ok] at h
        obtain ⟨⟨s1, fs⟩, h1, h2⟩ := h
        exact ⟨s1, fs, h1, h2⟩
      · simp only [Stmt.visit, bind_ok] at h
        obtain ⟨⟨s1, fs⟩, h1, h2⟩ := h
        exact ⟨s1, fs, h1, h2⟩
    obtain ⟨s1, fs, v1, v2⟩ := hv
    obtain ⟨pC, rC⟩ := cases_baGood hK ⟨h1, h2, h3⟩ bs hb cs s s1 fs c p σ h8 h4 h5 h6 hw hf hc hcur (fun x hXx => ⟨(hσ1 x hXx).1, (hσ x hXx).2⟩) v1
    have rC := rC.current hK pC.keeps.asgX pC.keeps.wf s.current
    have pC := pC.current s.current
    obtain ⟨q1, q2⟩ := close_good (s'' := s') hK hw hf hc pC rC rfl (by rw [← hcur]; exact v2)
    refine ⟨q1.congr (fun x => by simp only [Stmt.baAssigns]), q2.weaken (fun x => by simp only [Stmt.baAssigns]) ?_, ?_⟩
    · intro fit η η' h
      simp only [baRun, if_pos hk, Option.bind_eq_bind, Option.bind_eq_some_iff] at h
      obtain ⟨v, hv, i, hi, h⟩ := h
      simp only [hv, Option.bind_some]
      refine chosen_baSeq h7 h8 hi ?_
      cases i <;> exact h
    · intro x hXx
      rw [(hσ1 x hXx).2]
      exact q2.after hXx (hσ x hXx).2
  | block n ss ih =>
    intro h hX
    simp only [Stmt.baPlain] at h
    have hb : ∀ st ∈ ss, StGood K st := fun st hs => ih st hs (baPlainL_iff.mp h st hs)
      (fun x hx => hX x (by simp only [Stmt.baAssigns]; exact baAssignsL_iff.mpr ⟨st, hs, hx⟩))
    have := block_good hK (name := n) (list_baGood hK hb)
    have e0 : (Stmt.block n ss).visit = Stmt.visitBlock n (Stmt.visitList ss) := by funext s; simp only [Stmt.visit]
    have e1 : (fun y => (Stmt.block n ss).baAssigns K.res y) = fun y => Stmt.baAssignsL K.res y ss := by
      funext y; simp only [Stmt.baAssigns]
    have e3 : (fun fit => baRun fit K.res (Stmt.block n ss)) = fun fit => baRunList fit K.res ss := by
      funext fit η; simp only [baRun]
    show BaGood K _ _ _ _
    rw [e0, e1, e3]
    convert this using 1
    funext y st
    simp only [Stmt.baChk]
  | fors a b c d e s _ => intro h; simp [Stmt.baPlain] at h
  | whiles c s _ => intro h; simp [Stmt.baPlain] at h

/-! ### Always blocks -/

theorem always_start {mod : ScopeChain} {ls : List Sens} {body : Stmt} (hm : s.AtModule mod) (h : s.visitAlways ls body = .ok s') :
    ∃ (s1 : BV) (info : AlwaysInfo) (l : ScopeLabel), s.alwaysInfo mod ls = .ok info ∧ (TabEq s s1 ∧ s1.octx = s.octx) ∧ s1.current = mod ++ [l] ∧
      (∀ (X : ScopeChain → Prop) (Q : Str → Bool), BaChain ⟨s, mod, mod ++ [l], X, info, Q⟩ s1.frames (mod ++ [l]) []) ∧
      (∀ x, s1.ent (mod ++ [l]) x = none) ∧ ∃ s2, body.visit s1 = .ok s2 ∧ s' = { s2 with current := mod } := by
  obtain ⟨m, hm1, hm2, hm3, hm4⟩ := hm.frame
  simp only [BV.visitAlways, bind_ok, ok_inj] at h
  obtain ⟨⟨l, s0⟩, hl, f, hf, s1, h1, info, hi, g, hg, s2, h2, rfl⟩ := h
  obtain ⟨l1, l2, l3, l4, l5⟩ := label_ok hl
  have l6 : s0.octx = s.octx := by
    unfold BV.label at hl
    obtain ⟨f, -, hl⟩ := bind_ok.mp hl
    simp only [ok_inj, Prod.mk.injEq] at hl
    obtain ⟨-, rfl⟩ := hl
    rfl
  have hc0 : s0.current = mod := l2.trans hm.current
  simp only [BV.push, hc0] at h1
  split at h1
  · cases h1
  · simp only [ok_inj] at h1
    subst h1
    have hget : ∀ (F : Frame) c', (Dict.set s0.frames (mod ++ [⟨l, .always, none⟩]) F).get? c' =
        if mod ++ [⟨l, .always, none⟩] = c' then some F else s.frames.get? c' := by
      intro F c'
      rw [Dict.get?_set, l3]
    have hg' := frame_get hg
    simp only [hget, if_true, Option.some.injEq] at hg'
    subst hg'
    have hget2 : ∀ (F G : Frame) c', (Dict.set (Dict.set s0.frames (mod ++ [⟨l, .always, none⟩]) F) (mod ++ [⟨l, .always, none⟩]) G).get? c' =
        if mod ++ [⟨l, .always, none⟩] = c' then some G else s.frames.get? c' := by
      intro F G c'
      rw [Dict.get?_set]
      split
      · rfl
      · rename_i h; rw [hget, if_neg h]
    have hmne : mod ++ [(⟨l, .always, none⟩ : ScopeLabel)] ≠ mod := by simp
    have hinfo : s.alwaysInfo mod ls = .ok info := by
      rw [← hi, hm.current]
      unfold BV.alwaysInfo
      have : ∀ F : Frame, BV.sensStep { s0 with frames := Dict.set s0.frames (mod ++ [⟨l, .always, none⟩]) F, current := mod ++ [⟨l, .always, none⟩] } mod
          = s.sensStep mod := by
        intro F
        funext st e
        have h1 : ∀ n, BV.searchTerminal { s0 with frames := Dict.set s0.frames (mod ++ [⟨l, .always, none⟩]) F, current := mod ++ [⟨l, .always, none⟩] } n mod
            = s.searchTerminal n mod := by
          intro n
          rw [search_mod hm.ne hm1 hm2, search_mod (m := m) hm.ne (by simp only [hget, if_neg hmne]; exact hm1) hm2]
          simp only [l1.terms]
        unfold BV.sensStep
        simp only [h1]
      rw [this]
    refine ⟨_, info, ⟨l, .always, none⟩, hinfo, ?_, ?_, ?_, ?_, s2, h2, by rw [hm.current]⟩
    · exact ⟨⟨l1.terms, l4, l5, l1.fuel, l1.noreorder⟩, l6⟩
    · rfl
    · intro X Q
      refine .base ⟨l, .always, none⟩ _ m rfl (by simp only [hget2, if_true]; rfl) ?_ rfl rfl rfl (by simp) hm.ne
        (by simp only [hget2, if_neg hmne]; exact hm1) hm2 hm3 hm4
      exact ⟨rfl, rfl, rfl, rfl, rfl, by simp [Dict.Nodup], fun x ids h => nomatch (show (none : Option (List Nat)) = some ids from h)⟩
    · intro x
      simp only [BV.ent, hget2, if_true]
      rfl

/-- An assigned signal is a declared scalar. -/
theorem baPlain_scalar {Q : Str → Bool} {terms : Dict ScopeChain Term} {mod x : ScopeChain} (st : Stmt) : st.baPlain Q (isScalar terms mod) = true →
    st.baAssigns (resOf terms mod) x = true → ∃ t, terms.get? x = some t ∧ t.dims = none := by
  induction st using Stmt.ind with
  | skip => intro _ h; cases h
  | nb l r => intro h; simp [Stmt.baPlain] at h
  | ba l r =>
    intro h ha
    simp only [Stmt.baAssigns] at ha
    obtain ⟨n, rfl, hn⟩ := isWhole_iff.mp ha
    simp only [Stmt.baPlain, Bool.and_eq_true] at h
    unfold resOf at hn
    split at hn
    · cases hn
      have h1 := h.1
      unfold isScalar at h1
      split at h1
      · rename_i t ht
        exact ⟨t, ht, by simpa using h1⟩
      · cases h1
    · cases hn
  | ifs e t f iht ihf =>
    intro h ha
    simp only [Stmt.baPlain, Bool.and_eq_true] at h
    simp only [Stmt.baAssigns, Bool.or_eq_true] at ha
    rcases ha with ha | ha
    · exact iht h.1.2 ha
    · exact ihf h.2 ha
  | cases k comp cs bs ih =>
    intro h ha
    simp only [Stmt.baPlain, Bool.and_eq_true] at h
    simp only [Stmt.baAssigns] at ha
    obtain ⟨st, hs, ha⟩ := baAssignsL_iff.mp ha
    exact ih st hs (baPlainL_iff.mp h.2 st hs) ha
  | block n ss ih =>
    intro h ha
    simp only [Stmt.baPlain] at h
    simp only [Stmt.baAssigns] at ha
    obtain ⟨st, hs, ha⟩ := baAssignsL_iff.mp ha
    exact ih st hs (baPlainL_iff.mp h st hs) ha
  | fors a b c d e s _ => intro h; simp [Stmt.baPlain] at h
  | whiles c s _ => intro h; simp [Stmt.baPlain] at h

/-- **C74** (partial: always blocks whose statements are blocking assignments to whole scalars under if, case, casex and
begin-end; conditions read no assigned signal; for the orders of assignments that `Stmt.baChk` accepts; in a module whose
signals belong to the module).  Every signal the block assigns, and that nothing else assigns, gets exactly one assignment,
for the whole signal, with the clock and the reset of the block.  In every valuation in which the intermediate signals that
the block makes have the values of their own trees, the tree of the signal has the value of the signal after executing the
statements of the block in order: reads of a signal after its assignment see the assigned value, reads before it the value
from before the block, and where the tree assigns nothing the signal keeps the value it had.  What is known of the other
signals of the module stays. -/
theorem C74_blocking_partial (s s' : BV) (mod : ScopeChain) (ls : List Sens) (body : Stmt) (Q : Str → Bool) (hm : s.AtModule mod)
    (hkeys : ∀ n ids, s.binds.get? n = some ids → s.terms.has n = true)
    (hp : body.baPlain Q (isScalar s.terms mod) = true)
    (hx : ∀ x, body.baAssigns (resOf s.terms mod) x = true → s.binds.get? x = none ∧ (body.baChk (resOf s.terms mod) x .fresh).isSome = true)
    (hQ : ∀ n, Q n = true → ∃ x, resOf s.terms mod n = some x ∧ body.baAssigns (resOf s.terms mod) x = false)
    (h : s.visitAlways ls body = .ok s') :
    (∀ x, body.baAssigns (resOf s.terms mod) x = true → ∃ b, s'.getBindlist x = [b] ∧ b.whole ∧
      (∃ info, s.alwaysInfo mod ls = .ok info ∧ b.always = some info) ∧
      ∀ cut τ, s'.ArraysAgree τ → s.Intermediate s' cut τ → ∀ η', baRun (fitTo s.terms cut) (resOf s.terms mod) body τ = some η' →
        ∀ v, η'.sig x = some v → valOf τ x b.tree = some v) ∧
    (∀ n t, s.terms.get? n = some t → s'.terms.get? n = some t) ∧
    (∀ n, s.terms.has n = true → body.baAssigns (resOf s.terms mod) n = false → s'.getBindlist n = s.getBindlist n) := by
  obtain ⟨s1, info, l, hi, ⟨tab, -⟩, hcur, hch, hent, s2, h2, rfl⟩ := always_start hm h
  let K : BaEnv := ⟨s, mod, mod ++ [l], fun x => body.baAssigns (resOf s.terms mod) x = true, info, Q⟩
  have hX : ∀ x, K.X x ↔ body.baAssigns (resOf s.terms mod) x = true := fun x => Iff.rfl
  have hK : K.OK := ⟨fun x hx => baPlain_scalar body hp hx, fun n hn => by
    obtain ⟨x, h1, h2⟩ := hQ n hn
    exact ⟨x, h1, fun h3 => by rw [hX, h2] at h3; cases h3⟩⟩
  have hw : BaWF K s := by
    refine ⟨fun _ _ h => h, hm.flat, hm.nore, rfl, hkeys, hm.objs, ?_⟩
    intro x ids hXx hb
    rw [(hx x hXx).1] at hb; cases hb
  have hw1 := tab.wf hw
  have hf1 : BaFr K s1 (mod ++ [l]) := by
    intro c' h1 h2 x i hi
    have : c' = mod ++ [l] := h2.eq_of_length (Nat.le_antisymm h2.length_le h1.length_le)
    subst this
    rw [hent] at hi; cases hi
  have htree : ∀ x, K.X x → s1.treeOf x = .none := by
    intro x hXx
    rw [tab.treeOf]
    simp [BV.treeOf, BV.getBindlist, (hx x hXx).1, BV.deref]
  have hgood := visit_baGood (K := K) hK (D := isScalar s.terms mod) (by
    intro n hn
    refine ⟨mod ++ [⟨n, .signal, none⟩], ?_⟩
    show resOf s.terms mod n = _
    unfold isScalar at hn
    split at hn
    · rename_i t ht
      simp [resOf, Dict.has_eq, ht]
    · cases hn) body hp (fun x hx => hx)
  obtain ⟨st, rs, -⟩ := hgood s1 s2 (mod ++ [l]) [] (fun _ => .fresh) (nextSt (fun x => body.baChk K.res x) (fun _ => .fresh)) hw1 hf1 (hch _ _) hcur (fun x hXx => by
    obtain ⟨st', hst⟩ := Option.isSome_iff_exists.mp (hx x hXx).2
    have hst : body.baChk K.res x .fresh = some st' := hst
    refine ⟨by simp only [nextSt, hst]; rfl, ?_⟩
    rw [htree x hXx]
    exact ⟨by simp [nf], rfl, by intro p' hp'; simp only [TEnv.path, ok_inj] at hp'; subst hp'; simp [splitAlong, subAt]⟩) h2
  have tab2 := TabEq.current s2 mod
  refine ⟨?_, ?_, ?_⟩
  · intro x hXx
    obtain ⟨i, hti⟩ := Option.ne_none_iff_exists'.mp (st.keeps.tid1 x hXx)
    obtain ⟨k1, b, k2, k3, k4, k5⟩ := st.keeps.wf.tid_obj hXx hti
    have hbl : ({ s2 with current := mod } : BV).getBindlist x = [b] := by
      rw [tab2.bindlist]
      simp [BV.getBindlist, k1, BV.deref, k2]
    refine ⟨b, hbl, k4, ⟨info, hi, k5⟩, ?_⟩
    intro cut τ harr hint η' hrun v hv
    have hfit : BaFits K s2 cut τ := ⟨harr, hint⟩
    have hsv : SemVal K τ s1 τ := by
      refine ⟨?_, fun _ _ => rfl, rfl, rfl⟩
      intro y w hY hw
      rw [htree y hY]
      simp [valOf, sched, hw]
    have hvis : VisOK K τ s1 (mod ++ [l]) := by
      intro y hY
      refine ⟨?_, fun _ => by rw [htree y hY]; simp [sched]⟩
      intro c' j h1 h2 h3 _
      have : c' = mod ++ [l] := h2.eq_of_length (Nat.le_antisymm h2.length_le h1.length_le)
      subst this
      rw [hent] at h3; cases h3
    have := (rs.on cut τ τ η' hfit (by rfl) hsv hvis hrun).val x v hXx hv
    have ht : s2.treeOf x = b.tree := by
      rw [← tab2.treeOf, BV.treeOf, hbl]
    rw [ht] at this
    exact this
  · intro n t ht
    exact st.keeps.term n t (by rw [tab.terms]; exact ht)
  · intro n hn ha
    have hnX : ¬ K.X n := fun h3 => by rw [hX, ha] at h3; cases h3
    rw [tab2.bindlist, ← tab.bindlist]
    have hb := st.keeps.bnd n hnX (by rw [tab.terms]; exact hn)
    simp only [BV.getBindlist, hb]
    cases hbn : s1.binds.get? n with
    | none => simp [BV.deref]
    | some ids =>
      simp only [Option.getD_some, BV.deref]
      refine List.filterMap_congr ?_
      intro i hii
      obtain ⟨b, k1, k2⟩ := hw1.objs n ids hbn i hii
      obtain ⟨t, k3, k4⟩ := st.keeps.obj i b k1
      have : t = b.tree := k4.resolve_right (fun h => hnX (st.keeps.asgX n (by rw [← k2]; exact h.1)))
      subst this
      rw [k1, k3]

end

end Pyv
