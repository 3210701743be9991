import Verif.Props.NbTree
/-
  C58: the tree of one signal assigns what the specification says.
-/
namespace Pyv

variable {A : TEnv} {res : Str → Option ScopeChain} {x : ScopeChain}

/-- What the checker knows holds of the tree and the record. -/
def NbInv (A : TEnv) (st : NbSt) (p : ExPath) (T : DF) (rec : Option DF) : Prop :=
  nf true T ∧
  match st with
  | .fresh => rec = none ∧ A.FreshAt T p
  | .matched => rec = none ∧ A.At T p
  | .pend => rec = none ∧ A.AddAt T p
  | .deep => rec = none
  | .valid => (∃ v, rec = some v ∧ nf true v) ∧ A.At T p
  | .stale => (∃ v, rec = some v ∧ nf true v) ∧ A.At T p

/-- The record is what the tree assigns. -/
def RecOK (ρ : Env) (st : NbSt) (T : DF) (rec : Option DF) : Prop :=
  st = .valid → ∀ v, rec = some v → sched ρ T = sched ρ v

/-- A visitor of statements does what the specification `run` says, for the states accepted by `chk`. -/
def Good (A : TEnv) (res : Str → Option ScopeChain) (vis : ExPath → DF × Option DF → Py (DF × Option DF)) (chk : NbSt → Option NbSt)
    (run : Env → Option (Int × Int) → Option (Option (Int × Int))) (asg : Bool) : Prop :=
  ∀ p st T rec T' rec' st', ExPathOK p → vis p (T, rec) = .ok (T', rec') → chk st = some st' → NbInv A st p T rec →
    NbInv A st' p T' rec' ∧ (T' = T ∨ A.At T' p) ∧ (asg = true → A.At T' p) ∧ (rec = none → asg = false → T' = T) ∧ A.Sib p T T' ∧
    ∀ ρ, A.Sound ρ res →
      (exDec ρ res p = some false → sched ρ T' = sched ρ T) ∧
      (exDec ρ res p = some true → RecOK ρ st T rec → ∀ o o', sched ρ T = some o → run ρ o = some o' →
        sched ρ T' = some o' ∧ RecOK ρ st' T' rec')

theorem put_sem (hA : A.Norm) {p : ExPath} {T raw T' : DF} (hp : ExPathOK p) (hT : nf true T) (hr : nf true raw)
    (h : A.put p T raw = .ok T') (hadd : A.AddAt T p) :
    nf true T' ∧ A.At T' p ∧ A.Sib p T T' ∧ ∀ ρ, A.Sound ρ res →
      (exDec ρ res p = some true → sched ρ T' = sched ρ raw) ∧ (exDec ρ res p = some false → sched ρ T' = sched ρ T) := by
  obtain ⟨p', hp', ht, hn, hs⟩ := A.put_spec hA hp hT hr h
  refine ⟨hn, ⟨p', raw, hp', hs⟩, .put hp' ht, fun ρ hρ => ?_⟩
  obtain ⟨t, ht', -, h1, h2, -⟩ := preTree_spec T p' raw
  rw [ht] at ht'
  cases ht'
  exact ⟨fun hd => h1 ρ (A.dec_path hρ hp' hd), fun hd => h2 ρ (canAdd_iff (hadd p' hp')) (A.dec_path hρ hp' hd)⟩

/-- The facts about a new frame after the copy of the record. -/
def Entered (A : TEnv) (res : Str → Option ScopeChain) (q : ExPath) (st e : NbSt) (T : DF) (rec : Option DF) (T1 : DF) (rec1 : Option DF) : Prop :=
  NbInv A e q T1 rec1 ∧ (T1 = T ∨ A.At T1 q) ∧ (rec = none → T1 = T) ∧ rec1 = rec ∧ (e = .valid → st = .valid) ∧ A.Sib q T T1 ∧
  ∀ ρ, A.Sound ρ res →
    (exDec ρ res q = some false → sched ρ T1 = sched ρ T) ∧
    (exDec ρ res q = some true → RecOK ρ st T rec → sched ρ T1 = sched ρ T ∧ RecOK ρ e T1 rec1)

theorem entered_enter (hA : A.Norm) {p : ExPath} {c : Ex} {b : Bool} {st e : NbSt} {T : DF} {rec : Option DF} {s1 : DF × Option DF}
    (hq : ExPathOK (p ++ [(c, b)])) (he : st.enter = some e) (hinv : NbInv A st p T rec)
    (h : A.copy (p ++ [(c, b)]) (T, rec) = .ok s1) : Entered A res (p ++ [(c, b)]) st e T rec s1.1 s1.2 := by
  have nocopy : rec = none → s1 = (T, rec) := by
    rintro rfl
    simp only [TEnv.copy, ok_inj] at h
    exact h.symm
  cases st <;> simp only [NbSt.enter, Option.some.injEq, reduceCtorEq] at he <;> subst he
  · obtain ⟨h1, h2, h3⟩ := hinv
    rw [nocopy h2]
    subst h2
    exact ⟨⟨h1, rfl, h3.extend⟩, .inl rfl, fun _ => rfl, rfl, fun h => (by cases h), .refl,
      fun ρ _ => ⟨fun _ => rfl, fun _ _ => ⟨rfl, fun h => by cases h⟩⟩⟩
  · obtain ⟨h1, h2, h3⟩ := hinv
    rw [nocopy h2]
    subst h2
    exact ⟨⟨h1, rfl, h3.addNext c b⟩, .inl rfl, fun _ => rfl, rfl, fun h => (by cases h), .refl,
      fun ρ _ => ⟨fun _ => rfl, fun _ _ => ⟨rfl, fun h => by cases h⟩⟩⟩
  · obtain ⟨h1, h2, h3⟩ := hinv
    rw [nocopy h2]
    subst h2
    exact ⟨⟨h1, rfl⟩, .inl rfl, fun _ => rfl, rfl, fun h => (by cases h), .refl,
      fun ρ _ => ⟨fun _ => rfl, fun _ _ => ⟨rfl, fun h => by cases h⟩⟩⟩
  · obtain ⟨h1, h2⟩ := hinv
    rw [nocopy h2]
    subst h2
    exact ⟨⟨h1, rfl⟩, .inl rfl, fun _ => rfl, rfl, fun h => (by cases h), .refl,
      fun ρ _ => ⟨fun _ => rfl, fun _ _ => ⟨rfl, fun h => by cases h⟩⟩⟩
  · obtain ⟨h1, ⟨v, rfl, hv⟩, h3⟩ := hinv
    simp only [TEnv.copy, bind_ok, ok_inj] at h
    obtain ⟨T1, hT1, rfl⟩ := h
    obtain ⟨g1, g2, g0, g3⟩ := put_sem (res := res) hA hq h1 hv hT1 (h3.addNext c b)
    refine ⟨⟨g1, ⟨v, rfl, hv⟩, g2⟩, .inr g2, fun h => (by cases h), rfl, fun _ => rfl, g0, fun ρ hρ => ⟨(g3 ρ hρ).2, fun hd hrec => ?_⟩⟩
    have e1 := (g3 ρ hρ).1 hd
    exact ⟨by rw [e1, hrec rfl v rfl], fun _ w hw => by cases hw; exact e1⟩

theorem entered_other {p : ExPath} {c : Ex} {st e : NbSt} {T : DF} {rec : Option DF} {s1 : DF × Option DF}
    (he : st.other = some e) (hv : st ≠ .valid) (hn : nf true T) (hrec : rec = none) (hat : A.At T (p ++ [(c, true)])) (hfr : st = .fresh → A.FreshAt T (p ++ [(c, false)]))
    (h : A.copy (p ++ [(c, false)]) (T, rec) = .ok s1) : Entered A res (p ++ [(c, false)]) st e T rec s1.1 s1.2 := by
  subst hrec
  simp only [TEnv.copy, ok_inj] at h
  subst h
  by_cases hst : st = .fresh
  · subst hst
    simp only [NbSt.other, Option.some.injEq] at he
    subst he
    exact ⟨⟨hn, rfl, hfr rfl⟩, .inl rfl, fun _ => rfl, rfl, fun h => (by cases h), .refl,
      fun ρ _ => ⟨fun _ => rfl, fun _ _ => ⟨rfl, fun h => by cases h⟩⟩⟩
  have : e = .matched := by
    cases st <;> simp_all [NbSt.other]
  subst this
  exact ⟨⟨hn, rfl, hat.sibling false⟩, .inl rfl, fun _ => rfl, rfl, fun h => (by cases h), .refl,
    fun ρ _ => ⟨fun _ => rfl, fun _ _ => ⟨rfl, fun h => by cases h⟩⟩⟩

/-- One side of a condition. -/
theorem side_right {q : ExPath} {st e e' : NbSt} {T : DF} {rec : Option DF} {T' : DF}
    {vis : ExPath → DF × Option DF → Py (DF × Option DF)} {chk : NbSt → Option NbSt}
    {run : Env → Option (Int × Int) → Option (Option (Int × Int))} {asg : Bool}
    (hg : Good A res vis chk run asg) (hq : ExPathOK q)
    (hent : ∀ s1, A.copy q (T, rec) = .ok s1 → Entered A res q st e T rec s1.1 s1.2) (hchk : chk e = some e')
    (h : A.side q (vis q) rec T = .ok T') :
    nf true T' ∧ (T' = T ∨ A.At T' q) ∧ (asg = true → A.At T' q) ∧ (rec = none → asg = false → T' = T) ∧ A.Sib q T T' ∧
    ∀ ρ, A.Sound ρ res →
      (exDec ρ res q = some false → sched ρ T' = sched ρ T) ∧
      (exDec ρ res q = some true → RecOK ρ st T rec → ∀ o o', sched ρ T = some o → run ρ o = some o' → sched ρ T' = some o') := by
  simp only [TEnv.side, bind_ok, ok_inj] at h
  obtain ⟨⟨T1, rec1⟩, h1, ⟨T2, rec2⟩, h2, rfl⟩ := h
  obtain ⟨hi, hc, hn, hr, hv, hb, hs⟩ := hent _ h1
  simp only at hi hc hn hr hv hb hs
  subst hr
  obtain ⟨g1, g2, g3, g4, g0, g5⟩ := hg q e T1 rec1 T2 rec2 e' hq h2 hchk hi
  refine ⟨g1.1, ?_, g3, fun a b => (g4 a b).trans (hn a), hb.trans g0, fun ρ hρ => ⟨fun hd => ?_, fun hd hrec o o' ho ho' => ?_⟩⟩
  · rcases g2 with rfl | g2
    · exact hc
    · exact .inr g2
  · rw [(g5 ρ hρ).1 hd, (hs ρ hρ).1 hd]
  · obtain ⟨k1, k2⟩ := (hs ρ hρ).2 hd hrec
    exact ((g5 ρ hρ).2 hd k2 o o' (by rw [k1, ho]) ho').1

theorem exPathOK_snoc {p : ExPath} {c : Ex} {b : Bool} (hp : ExPathOK p) (hc : c.noCond = true) : ExPathOK (p ++ [(c, b)]) := by
  intro q hq
  rcases List.mem_append.mp hq with h | h
  · exact hp q h
  · simp only [List.mem_singleton] at h; subst h; exact hc

theorem exDec_snoc {ρ : Env} {p : ExPath} {c : Ex} {b : Bool} {v} (hp : exDec ρ res p = some true) (hv : exVal ρ res c = some v) :
    exDec ρ res (p ++ [(c, b)]) = some (decide (decide (v.1 ≠ 0) = b)) := by
  rw [exDec_append, hp]
  simp only [Option.bind_eq_bind, Option.bind_some, if_true, exDec, hv]
  split <;> simp_all

theorem exDec_snoc_false {ρ : Env} {p : ExPath} {c : Ex} {b : Bool} (hp : exDec ρ res p = some false) :
    exDec ρ res (p ++ [(c, b)]) = some false := by
  rw [exDec_append, hp]; rfl

/-- The structural part of leaving a compound statement. -/
theorem inv_after {st : NbSt} {p : ExPath} {T T' : DF} {rec : Option DF} {asg : Bool} (hinv : NbInv A st p T rec) (hn : nf true T')
    (hk : T' = T ∨ A.At T' p) (ha : asg = true → A.At T' p) (h0 : rec = none → asg = false → T' = T) :
    NbInv A (if asg then st.after else st) p T' rec := by
  refine ⟨hn, ?_⟩
  cases asg
  · simp only [Bool.false_eq_true, if_false]
    have hrec : rec = none → T' = T := fun h => h0 h rfl
    cases st <;> obtain ⟨h1, h2⟩ := hinv
    · rw [hrec h2.1]; exact h2
    · rw [hrec h2.1]; exact h2
    · rw [hrec h2.1]; exact h2
    · exact h2
    · rcases hk with rfl | hk
      · exact h2
      · exact ⟨h2.1, hk⟩
    · rcases hk with rfl | hk
      · exact h2
      · exact ⟨h2.1, hk⟩
  · simp only [if_true]
    have := ha rfl
    cases st <;> obtain ⟨h1, h2⟩ := hinv
    · exact ⟨h2.1, this⟩
    · exact ⟨h2.1, this⟩
    · exact ⟨h2.1, this⟩
    · exact ⟨h2, this⟩
    · exact ⟨h2.1, this⟩
    · exact ⟨h2.1, this⟩

theorem after_not_valid {st : NbSt} {asg : Bool} (h : (if asg then st.after else st) = .valid) : asg = false ∧ st = .valid := by
  cases asg <;> cases st <;> simp_all [NbSt.after]

/-- Both sides of a condition. -/
theorem if_right (hA : A.Norm) {c : Ex} (hc : c.noCond = true)
    {visT visF : ExPath → DF × Option DF → Py (DF × Option DF)} {chkT chkF : NbSt → Option NbSt}
    {runT runF : Env → Option (Int × Int) → Option (Option (Int × Int))} {asgT asgF : Bool}
    (hgT : Good A res visT chkT runT asgT) (hgF : Good A res visF chkF runF asgF)
    {p : ExPath} {st e e' e2 e2' : NbSt} {T T1 T2 : DF} {rec : Option DF} (hp : ExPathOK p) (hinv : NbInv A st p T rec)
    (he : st.enter = some e) (he' : chkT e = some e')
    (he2 : (if asgT then st.other else st.enter) = some e2) (he2' : chkF e2 = some e2')
    (h1 : A.side (p ++ [(c, true)]) (visT (p ++ [(c, true)])) rec T = .ok T1)
    (h2 : A.side (p ++ [(c, false)]) (visF (p ++ [(c, false)])) rec T1 = .ok T2) :
    nf true T2 ∧ (T2 = T ∨ A.At T2 p) ∧ ((asgT || asgF) = true → A.At T2 p) ∧ (rec = none → (asgT || asgF) = false → T2 = T) ∧ A.Sib p T T2 ∧
    ∀ ρ, A.Sound ρ res →
      (exDec ρ res p = some false → sched ρ T2 = sched ρ T) ∧
      (exDec ρ res p = some true → RecOK ρ st T rec → ∀ o o' b, sched ρ T = some o → exVal ρ res c = some b →
        (if b.1 ≠ 0 then runT ρ o else runF ρ o) = some o' → sched ρ T2 = some o') := by
  have ht := side_right (st := st) hgT (exPathOK_snoc hp hc) (fun s1 hs => entered_enter hA (exPathOK_snoc hp hc) he hinv hs) he' h1
  obtain ⟨t1, t2, t3, t4, t0, t5⟩ := ht
  have hstale : st ≠ .stale := by rintro rfl; cases he
  -- the second side
  have hinv1 : st = .valid ∨ asgT = false → NbInv A st p T1 rec := by
    intro hor
    have hk : T1 = T ∨ A.At T1 p := t2.imp id (fun h => h.prefix)
    cases hst : st
    case valid =>
      subst hst
      refine ⟨t1, hinv.2.1, ?_⟩
      rcases hk with rfl | hk
      · exact hinv.2.2
      · exact hk
    all_goals
      have ha : asgT = false := by
        rcases hor with h | h
        · rw [hst] at h; cases h
        · exact h
      rw [← hst]
      have := inv_after (asg := asgT) hinv t1 hk (fun h => (t3 h).prefix) t4
      rw [ha] at this
      simpa using this
  have hent : ∀ s1, A.copy (p ++ [(c, false)]) (T1, rec) = .ok s1 → Entered A res (p ++ [(c, false)]) st e2 T1 rec s1.1 s1.2 := by
    intro s1 hs
    by_cases hv : st = .valid
    · subst hv
      have : e2 = .valid := by
        cases asgT <;> simp [NbSt.other, NbSt.enter] at he2 <;> exact he2.symm
      subst this
      exact entered_enter hA (exPathOK_snoc hp hc) rfl (hinv1 (.inl rfl)) hs
    · cases ha : asgT
      · rw [ha] at he2
        exact entered_enter hA (exPathOK_snoc hp hc) he2 (hinv1 (.inr ha)) hs
      · rw [ha] at he2
        have hrec : rec = none := by
          cases hst : st <;> simp_all [NbInv]
        refine entered_other he2 hv t1 hrec (t3 ha) ?_ hs
        rintro rfl
        exact t0 p c true [] rfl hinv.2.2.extend
  obtain ⟨f1, f2, f3, f4, f0, f5⟩ := side_right (st := st) hgF (exPathOK_snoc hp hc) hent he2' h2
  refine ⟨f1, ?_, ?_, ?_, t0.prefix.trans f0.prefix, fun ρ hρ => ⟨fun hd => ?_, fun hd hrec o o' b ho hb ho' => ?_⟩⟩
  · rcases f2 with rfl | f2
    · exact t2.imp id (fun h => h.prefix)
    · exact .inr f2.prefix
  · intro ha
    rcases f2 with rfl | f2
    · cases hT : asgT
      · simp only [hT, Bool.false_or] at ha
        exact (f3 ha).prefix
      · exact (t3 hT).prefix
    · exact f2.prefix
  · intro hr ha
    simp only [Bool.or_eq_false_iff] at ha
    rw [f4 hr ha.2, t4 hr ha.1]
  · rw [(f5 ρ hρ).1 (exDec_snoc_false hd), (t5 ρ hρ).1 (exDec_snoc_false hd)]
  · by_cases hz : b.1 = 0
    · have d1 : exDec ρ res (p ++ [(c, true)]) = some false := by rw [exDec_snoc hd hb]; simp [hz]
      have d2 : exDec ρ res (p ++ [(c, false)]) = some true := by rw [exDec_snoc hd hb]; simp [hz]
      have k1 := (t5 ρ hρ).1 d1
      rw [if_neg (by simp [hz])] at ho'
      refine (f5 ρ hρ).2 d2 ?_ o o' (by rw [k1, ho]) ho'
      intro hv v hrv
      rw [k1]
      exact hrec hv v hrv
    · have d1 : exDec ρ res (p ++ [(c, true)]) = some true := by rw [exDec_snoc hd hb]; simp [hz]
      have d2 : exDec ρ res (p ++ [(c, false)]) = some false := by rw [exDec_snoc hd hb]; simp [hz]
      rw [if_pos (by simpa using hz)] at ho'
      rw [(f5 ρ hρ).1 d2]
      exact (t5 ρ hρ).2 d1 hrec o o' ho ho'

/-- A condition without a false side. -/
theorem then_right (hA : A.Norm) {c : Ex} (hc : c.noCond = true)
    {visT : ExPath → DF × Option DF → Py (DF × Option DF)} {chkT : NbSt → Option NbSt}
    {runT : Env → Option (Int × Int) → Option (Option (Int × Int))} {asgT : Bool}
    (hgT : Good A res visT chkT runT asgT)
    {p : ExPath} {st e e' : NbSt} {T T1 : DF} {rec : Option DF} (hp : ExPathOK p) (hinv : NbInv A st p T rec)
    (he : st.enter = some e) (he' : chkT e = some e')
    (h1 : A.side (p ++ [(c, true)]) (visT (p ++ [(c, true)])) rec T = .ok T1) :
    nf true T1 ∧ (T1 = T ∨ A.At T1 p) ∧ (asgT = true → A.At T1 p) ∧ (rec = none → asgT = false → T1 = T) ∧ A.Sib p T T1 ∧
    ∀ ρ, A.Sound ρ res →
      (exDec ρ res p = some false → sched ρ T1 = sched ρ T) ∧
      (exDec ρ res p = some true → RecOK ρ st T rec → ∀ o o' b, sched ρ T = some o → exVal ρ res c = some b →
        (if b.1 ≠ 0 then runT ρ o else some o) = some o' → sched ρ T1 = some o') := by
  obtain ⟨t1, t2, t3, t4, t0, t5⟩ :=
    side_right (st := st) hgT (exPathOK_snoc hp hc) (fun s1 hs => entered_enter hA (exPathOK_snoc hp hc) he hinv hs) he' h1
  refine ⟨t1, t2.imp id (fun h => h.prefix), fun h => (t3 h).prefix, t4, t0.prefix, fun ρ hρ => ⟨fun hd => ?_, fun hd hrec o o' b ho hb ho' => ?_⟩⟩
  · exact (t5 ρ hρ).1 (exDec_snoc_false hd)
  · by_cases hz : b.1 = 0
    · have d1 : exDec ρ res (p ++ [(c, true)]) = some false := by rw [exDec_snoc hd hb]; simp [hz]
      rw [if_neg (by simp [hz])] at ho'
      rw [(t5 ρ hρ).1 d1, ho, ho']
    · have d1 : exDec ρ res (p ++ [(c, true)]) = some true := by rw [exDec_snoc hd hb]; simp [hz]
      rw [if_pos (by simpa using hz)] at ho'
      exact (t5 ρ hρ).2 d1 hrec o o' ho ho'

/-! ### Statements that do not assign -/

theorem nbRunNth_mem {ρ : Env} {bs : List Stmt} {i o o'} (h : nbRunNth ρ res x bs i o = some o') :
    ∃ b ∈ bs, nbRun ρ res x b o = some o' := by
  induction bs generalizing i with
  | nil => simp [nbRunNth] at h
  | cons b bs ih =>
    cases i with
    | zero => exact ⟨b, by simp, h⟩
    | succ i =>
      obtain ⟨c, hc, hr⟩ := ih h
      exact ⟨c, by simp [hc], hr⟩

theorem assignsL_iff {ss : List Stmt} : Stmt.assignsL res x ss = false ↔ ∀ s ∈ ss, s.assigns res x = false := by
  induction ss with
  | nil => simp [Stmt.assignsL]
  | cons a ss ih => simp [Stmt.assignsL, ih]

theorem run_noassign {ρ : Env} (s : Stmt) : ∀ o o', s.assigns res x = false → nbRun ρ res x s o = some o' → o' = o := by
  induction s using Stmt.ind with
  | skip => intro o o' _ h; simpa [nbRun] using h.symm
  | nb l r =>
    intro o o' ha h
    cases l with
    | ident sc n =>
      cases sc with
      | nil =>
        simp only [Stmt.assigns, isWhole, decide_eq_false_iff_not] at ha
        simp only [nbRun, if_neg ha, Option.some.injEq] at h
        exact h.symm
      | cons => simpa [nbRun] using h.symm
    | _ => simpa [nbRun] using h.symm
  | ba l r => intro o o' _ h; simp [nbRun] at h
  | ifs c t f iht ihf =>
    intro o o' ha h
    simp only [Stmt.assigns, Bool.or_eq_false_iff] at ha
    simp only [nbRun, Option.bind_eq_bind, Option.bind_eq_some_iff] at h
    obtain ⟨b, -, h⟩ := h
    split at h
    · exact iht o o' ha.1 h
    · exact ihf o o' ha.2 h
  | cases k c cs bs ih =>
    intro o o' ha h
    simp only [Stmt.assigns] at ha
    rw [assignsL_iff] at ha
    simp only [nbRun] at h
    split at h
    · simp only [Option.bind_eq_bind, Option.bind_eq_some_iff] at h
      obtain ⟨v, -, i, -, h⟩ := h
      cases i with
      | none => simpa using h.symm
      | some i =>
        obtain ⟨b, hb, hr⟩ := nbRunNth_mem h
        exact ih b hb o o' (ha b hb) hr
    · cases h
  | block n ss ih =>
    intro o o' ha h
    simp only [Stmt.assigns] at ha
    rw [assignsL_iff] at ha
    simp only [nbRun] at h
    clear n
    induction ss generalizing o with
    | nil => simpa [nbRunList] using h.symm
    | cons a ss ihl =>
      simp only [nbRunList, Option.bind_eq_bind, Option.bind_eq_some_iff] at h
      obtain ⟨m, hm, h⟩ := h
      have := ih a (by simp) o m (ha a (by simp)) hm
      subst this
      exact ihl (fun s hs => ih s (by simp [hs])) m (fun s hs => ha s (by simp [hs])) h
  | fors => intro o o' _ h; simp [nbRun] at h
  | whiles => intro o o' _ h; simp [nbRun] at h

/-! ### Case statements -/

/-- The items of a case statement in order, `default` taken as always matching. -/
def seqRun (ρ : Env) (res : Str → Option ScopeChain) (x : ScopeChain) (v : Int) :
    List (Option (List Ex)) → List Stmt → Option (Int × Int) → Option (Option (Int × Int))
  | some es :: cs, b :: bs, o => do
    let hit ← itemHit ρ res v es
    if hit then nbRun ρ res x b o else seqRun ρ res x v cs bs o
  | none :: _, b :: _, o => nbRun ρ res x b o
  | _, _, o => some o

theorem firstHit_shift {ρ : Env} {v : Int} {cs : List (Option (List Ex))} {i : Nat} :
    firstHit ρ res v cs i = (firstHit ρ res v cs 0).map (Option.map (· + i)) := by
  induction cs generalizing i with
  | nil => rfl
  | cons c cs ih =>
    cases c with
    | none =>
      simp only [firstHit]
      rw [ih (i := i + 1), ih (i := 0 + 1)]
      cases firstHit ρ res v cs 0 with
      | none => rfl
      | some m => cases m <;> simp; omega
    | some es =>
      simp only [firstHit]
      cases itemHit ρ res v es with
      | none => rfl
      | some b =>
        cases b
        · simp only [Option.bind_eq_bind, Option.bind_some, Bool.false_eq_true, if_false]
          rw [ih (i := i + 1), ih (i := 0 + 1)]
          cases firstHit ρ res v cs 0 with
          | none => rfl
          | some m => cases m <;> simp; omega
        · simp

theorem defaultItem_shift {cs : List (Option (List Ex))} {i : Nat} :
    defaultItem cs i = (defaultItem cs 0).map (· + i) := by
  induction cs generalizing i with
  | nil => rfl
  | cons c cs ih =>
    cases c with
    | none => simp [defaultItem]
    | some es =>
      simp only [defaultItem]
      rw [ih (i := i + 1), ih (i := 0 + 1)]
      cases defaultItem cs 0 <;> simp; omega

theorem chosen_seq {ρ : Env} {v : Int} {cs : List (Option (List Ex))} {bs : List Stmt} {o o'} {i}
    (hd : defaultLast cs = true) (hl : cs.length = bs.length) (hi : chosen ρ res v cs = some i)
    (h : (match (generalizing := false) i with | none => some o | some i => nbRunNth ρ res x bs i o) = some o') :
    seqRun ρ res x v cs bs o = some o' := by
  induction cs generalizing bs i with
  | nil =>
    simp only [chosen, firstHit, defaultItem, Option.bind_eq_bind, Option.bind_some, Option.some.injEq] at hi
    subst hi
    simpa [seqRun] using h
  | cons c cs ih =>
    cases bs with
    | nil => simp at hl
    | cons b bs =>
      cases c with
      | none =>
        have : cs = [] := by
          cases cs with
          | nil => rfl
          | cons => simp [defaultLast] at hd
        subst this
        simp only [chosen, firstHit, defaultItem, Option.bind_eq_bind, Option.bind_some, Option.some.injEq] at hi
        subst hi
        simpa [seqRun, nbRunNth] using h
      | some es =>
        simp only [seqRun, Option.bind_eq_bind]
        simp only [chosen, firstHit, Option.bind_eq_bind, Option.bind_eq_some_iff] at hi
        obtain ⟨m, ⟨hit, hhit, hm⟩, hi⟩ := hi
        rw [hhit]
        simp only [Option.bind_some]
        cases hit
        · simp only [Bool.false_eq_true, if_false] at hm ⊢
          rw [firstHit_shift] at hm
          simp only [Option.map_eq_some_iff] at hm
          obtain ⟨m0, hm0, rfl⟩ := hm
          have hdl : defaultLast cs = true := by
            cases cs with
            | nil => rfl
            | cons => simpa [defaultLast] using hd
          cases m0 with
          | some j =>
            simp only [Option.map_some, Option.some.injEq] at hi
            subst hi
            exact ih hdl (by simpa using hl) (i := some j) (by simp [chosen, hm0]) h
          | none =>
            simp only [Option.map_none, defaultItem] at hi
            rw [defaultItem_shift] at hi
            simp only [Option.some.injEq] at hi
            refine ih hdl (by simpa using hl) (i := defaultItem cs 0) (by simp [chosen, hm0]) ?_
            cases hdi : defaultItem cs 0 with
            | none => rw [hdi] at hi; subst hi; exact h
            | some j => rw [hdi] at hi; subst hi; exact h
        · simp only [if_true, Option.some.injEq] at hm ⊢
          subst hm
          simp only [Option.some.injEq] at hi
          subst hi
          exact h

theorem caseCond_val {ρ : Env} {comp e : Ex} {c : Option (List Ex)} {v : Int × Int} (hv : exVal ρ res comp = some v)
    (h : caseCond comp c = .ok e) :
    match c with
    | none => ∃ w, exVal ρ res e = some w ∧ w.1 ≠ 0
    | some es => ∀ hit, itemHit ρ res v.1 es = some hit → ∃ w, exVal ρ res e = some w ∧ decide (w.1 ≠ 0) = hit := by
  cases c with
  | none =>
    simp only [caseCond, ok_inj] at h
    subst h
    exact ⟨(1, 32), rfl, by decide⟩
  | some es =>
    cases es with
    | nil => simp [caseCond] at h
    | cons c0 cs =>
      simp only [caseCond, ok_inj] at h
      subst h
      intro hit hh
      simp only [itemHit, Option.bind_eq_bind, Option.bind_eq_some_iff, Option.some.injEq] at hh
      obtain ⟨xs, hxs, rfl⟩ := hh
      simp only [exValL, Option.bind_eq_bind, Option.bind_eq_some_iff, Option.some.injEq] at hxs
      obtain ⟨y, hy, ys, hys, rfl⟩ := hxs
      have key : ∀ (cs : List Ex) (ys : List (Int × Int)) (a : Ex) (b : Bool), exValL ρ res cs = some ys →
          (∃ w, exVal ρ res a = some w ∧ decide (w.1 ≠ 0) = b) →
          ∃ w, exVal ρ res (cs.foldl (fun a e => .bin .lor a (.bin .eq comp e)) a) = some w ∧
            decide (w.1 ≠ 0) = (b || ys.any (fun x => x.1 = v.1)) := by
        intro cs
        induction cs with
        | nil =>
          intro ys a b h1 h2
          simp only [exValL, Option.some.injEq] at h1
          subst h1
          simpa using h2
        | cons d ds ih =>
          intro ys a b h1 h2
          simp only [exValL, Option.bind_eq_bind, Option.bind_eq_some_iff, Option.some.injEq] at h1
          obtain ⟨z, hz, zs, hzs, rfl⟩ := h1
          obtain ⟨w, hw, hb⟩ := h2
          obtain ⟨u, hu, hub⟩ := ih zs (.bin .lor a (.bin .eq comp d)) (b || decide (z.1 = v.1)) hzs (by
            refine ⟨_, by simp only [exVal, hw, hv, hz, Option.bind_eq_bind, Option.bind_some, opSem]; rfl, ?_⟩
            subst hb
            by_cases h2 : z.1 = v.1
            · by_cases h1 : w.1 = 0 <;> simp [b2i, h1, h2]
            · have h3 : v.1 ≠ z.1 := fun e => h2 e.symm
              by_cases h1 : w.1 = 0 <;> simp [b2i, h1, h2, h3])
          refine ⟨u, hu, ?_⟩
          rw [hub]
          simp [Bool.or_assoc]
      obtain ⟨w, hw, hd⟩ := key cs ys (.bin .eq comp c0) (decide (y.1 = v.1)) hys (by
        refine ⟨_, by simp only [exVal, hv, hy, Option.bind_eq_bind, Option.bind_some, opSem]; rfl, ?_⟩
        by_cases h2 : y.1 = v.1
        · simp [b2i, h2]
        · have : v.1 ≠ y.1 := fun e => h2 e.symm
          simp [b2i, h2, this])
      exact ⟨w, hw, by rw [hd]; simp⟩

theorem caseCond_noCond {comp e : Ex} {c : Option (List Ex)} (h1 : comp.noCond = true) (h2 : itemsNoCond [c] = true)
    (h : caseCond comp c = .ok e) : e.noCond = true := by
  cases c with
  | none => simp only [caseCond, ok_inj] at h; subst h; rfl
  | some es =>
    cases es with
    | nil => simp [caseCond] at h
    | cons c0 cs =>
      simp only [caseCond, ok_inj] at h
      subst h
      simp only [itemsNoCond, Ex.noCondL, Bool.and_true, Bool.and_eq_true] at h2
      have key : ∀ (cs : List Ex) (a : Ex), Ex.noCondL cs = true → a.noCond = true →
          (cs.foldl (fun a e => Ex.bin .lor a (.bin .eq comp e)) a).noCond = true := by
        intro cs
        induction cs with
        | nil => intro a _ h; exact h
        | cons d ds ih =>
          intro a h h'
          simp only [Ex.noCondL, Bool.and_eq_true] at h
          exact ih _ h.2 (by simp [Ex.noCond, h', h1, h.1])
      exact key cs _ h2.2 (by simp [Ex.noCond, h1, h2.1])

/-- The items of a case statement as a visitor. -/
def casesVis (A : TEnv) (res : Str → Option ScopeChain) (x : ScopeChain) (comp : Ex) (bs : List Stmt) (cs : List (Option (List Ex)))
    (p : ExPath) (st : DF × Option DF) : Py (DF × Option DF) := do
  let T ← A.visitCases res x comp bs cs p st
  .ok (T, st.2)

/-- The check of the items. -/
def casesChk (res : Str → Option ScopeChain) (x : ScopeChain) (bs : List Stmt) (st : NbSt) : Option NbSt :=
  if Stmt.chkCases res x bs st then some (if Stmt.assignsL res x bs then st.after else st) else none

/-- The specification of the items. -/
def casesRun (res : Str → Option ScopeChain) (x : ScopeChain) (comp : Ex) (bs : List Stmt) (cs : List (Option (List Ex)))
    (ρ : Env) (o : Option (Int × Int)) : Option (Option (Int × Int)) := do
  let v ← exVal ρ res comp
  seqRun ρ res x v.1 cs bs o

/-- From the facts about a compound statement to `Good`. -/
theorem good_after {st : NbSt} {p : ExPath} {T T' : DF} {rec : Option DF} {asg : Bool}
    {run : Env → Option (Int × Int) → Option (Option (Int × Int))} (hinv : NbInv A st p T rec)
    (hrun : asg = false → ∀ ρ o o', run ρ o = some o' → o' = o)
    (h : nf true T' ∧ (T' = T ∨ A.At T' p) ∧ (asg = true → A.At T' p) ∧ (rec = none → asg = false → T' = T) ∧ A.Sib p T T' ∧
      ∀ ρ, A.Sound ρ res →
        (exDec ρ res p = some false → sched ρ T' = sched ρ T) ∧
        (exDec ρ res p = some true → RecOK ρ st T rec → ∀ o o', sched ρ T = some o → run ρ o = some o' → sched ρ T' = some o')) :
    NbInv A (if asg then st.after else st) p T' rec ∧ (T' = T ∨ A.At T' p) ∧ (asg = true → A.At T' p) ∧
      (rec = none → asg = false → T' = T) ∧ A.Sib p T T' ∧
    ∀ ρ, A.Sound ρ res →
      (exDec ρ res p = some false → sched ρ T' = sched ρ T) ∧
      (exDec ρ res p = some true → RecOK ρ st T rec → ∀ o o', sched ρ T = some o → run ρ o = some o' →
        sched ρ T' = some o' ∧ RecOK ρ (if asg then st.after else st) T' rec) := by
  obtain ⟨h1, h2, h3, h4, h0, h5⟩ := h
  refine ⟨inv_after hinv h1 h2 h3 h4, h2, h3, h4, h0, fun ρ hρ => ⟨(h5 ρ hρ).1, fun hd hrec o o' ho ho' => ?_⟩⟩
  have k := (h5 ρ hρ).2 hd hrec o o' ho ho'
  refine ⟨k, fun hv v hrv => ?_⟩
  obtain ⟨ha, hst⟩ := after_not_valid hv
  have := hrun ha ρ o o' ho'
  subst this
  rw [k, ← ho]
  exact hrec hst v hrv

theorem seqRun_noassign {ρ : Env} {v : Int} {cs : List (Option (List Ex))} {bs : List Stmt} {o o'}
    (ha : Stmt.assignsL res x bs = false) (h : seqRun ρ res x v cs bs o = some o') : o' = o := by
  induction cs generalizing bs with
  | nil => cases bs <;> simpa [seqRun] using h.symm
  | cons c cs ih =>
    cases bs with
    | nil => cases c <;> simpa [seqRun] using h.symm
    | cons b bs =>
      simp only [Stmt.assignsL, Bool.or_eq_false_iff] at ha
      cases c with
      | none => exact run_noassign b o o' ha.1 (by simpa [seqRun] using h)
      | some es =>
        simp only [seqRun, Option.bind_eq_bind, Option.bind_eq_some_iff] at h
        obtain ⟨hit, -, h⟩ := h
        cases hit
        · exact ih ha.2 (by simpa using h)
        · exact run_noassign b o o' ha.1 (by simpa using h)

theorem cases_good (hA : A.Norm) {comp : Ex} (hcomp : comp.noCond = true) {bs : List Stmt}
    (hbs : ∀ b ∈ bs, Good A res (A.visit res x b) (b.chk res x) (fun ρ => nbRun ρ res x b) (b.assigns res x))
    (cs : List (Option (List Ex))) (hlen : cs.length = bs.length) (hcs : itemsNoCond cs = true) :
    Good A res (casesVis A res x comp bs cs) (casesChk res x bs) (casesRun res x comp bs cs) (Stmt.assignsL res x bs) := by
  induction bs generalizing cs with
  | nil =>
    have : cs = [] := by simpa using hlen
    subst this
    intro p st T rec T' rec' st' hp h hc hinv
    simp only [casesVis, TEnv.visitCases, ok_bind, ok_inj, Prod.mk.injEq] at h
    obtain ⟨rfl, rfl⟩ := h
    simp only [casesChk, Stmt.chkCases, Stmt.assignsL, if_true, Bool.false_eq_true, if_false, Option.some.injEq] at hc
    subst hc
    refine ⟨hinv, .inl rfl, fun h => (by simp [Stmt.assignsL] at h), fun _ _ => rfl, .refl, fun ρ _ => ⟨fun _ => rfl, fun hd hrec o o' ho ho' => ?_⟩⟩
    simp only [casesRun, Option.bind_eq_bind, Option.bind_eq_some_iff] at ho'
    obtain ⟨v, -, ho'⟩ := ho'
    simp only [seqRun, Option.some.injEq] at ho'
    subst ho'
    exact ⟨ho, hrec⟩
  | cons b bs ih =>
    cases cs with
    | nil => simp at hlen
    | cons c cs =>
      intro p st T rec T' rec' st' hp h hchk hinv
      have hc1 : itemsNoCond [c] = true := by
        cases c <;> simp [itemsNoCond] at hcs ⊢; exact hcs.1
      have hc2 : itemsNoCond cs = true := by
        cases c <;> simp [itemsNoCond] at hcs
        · exact hcs
        · exact hcs.2
      simp only [casesVis, TEnv.visitCases, bind_ok, ok_inj, Prod.mk.injEq] at h
      obtain ⟨T0, ⟨e, he, T1, hT1, h⟩, rfl, rfl⟩ := h
      have hec := caseCond_noCond hcomp hc1 he
      have hgb := hbs b (by simp)
      have ih' := ih (fun b hb => hbs b (by simp [hb])) cs (by simpa using hlen) hc2
      simp only [casesChk] at hchk
      split at hchk
      · rename_i hck
        simp only [Option.some.injEq] at hchk
        subst hchk
        simp only [Stmt.chkCases] at hck
        cases hse : st.enter with
        | none => simp [hse] at hck
        | some en =>
          simp only [hse, Bool.and_eq_true] at hck
          obtain ⟨hb1, hb2⟩ := hck
          obtain ⟨en', hen'⟩ := Option.isSome_iff_exists.mp hb1
          refine good_after (run := casesRun res x comp (b :: bs) (c :: cs)) hinv (fun ha ρ o o' hr => ?_) ?_
          · simp only [casesRun, Option.bind_eq_bind, Option.bind_eq_some_iff] at hr
            obtain ⟨v, -, hr⟩ := hr
            exact seqRun_noassign ha hr
          · by_cases hemp : bs.isEmpty
            · rw [if_pos hemp] at h
              simp only [ok_inj] at h
              subst h
              have hbnil : bs = [] := by simpa using hemp
              subst hbnil
              have hcnil : cs = [] := by simpa using hlen
              subst hcnil
              obtain ⟨t1, t2, t3, t4, t0, t5⟩ := then_right hA hec hgb hp hinv hse hen' hT1
              refine ⟨t1, t2, fun h => t3 (by simpa [Stmt.assignsL] using h),
                fun a h => t4 a (by simpa [Stmt.assignsL] using h), t0, fun ρ hρ => ⟨(t5 ρ hρ).1, fun hd hrec o o' ho ho' => ?_⟩⟩
              simp only [casesRun, Option.bind_eq_bind, Option.bind_eq_some_iff] at ho'
              obtain ⟨v, hv, ho'⟩ := ho'
              have hval := caseCond_val hv he
              cases c with
              | none =>
                obtain ⟨w, hw, hwz⟩ := hval
                refine (t5 ρ hρ).2 hd hrec o o' w ho hw ?_
                rw [if_pos hwz]
                simpa [seqRun] using ho'
              | some es =>
                simp only [seqRun, Option.bind_eq_bind, Option.bind_eq_some_iff] at ho'
                obtain ⟨hit, hhit, ho'⟩ := ho'
                obtain ⟨w, hw, hwd⟩ := hval hit hhit
                refine (t5 ρ hρ).2 hd hrec o o' w ho hw ?_
                cases hit
                · rw [if_neg (by simpa using hwd)]; simpa using ho'
                · rw [if_pos (by simpa using hwd)]; simpa using ho'
            · rw [if_neg hemp] at h
              have h2 : A.side (p ++ [(e, false)]) (casesVis A res x comp bs cs (p ++ [(e, false)])) rec T1 = .ok T0 := by
                simp only [bind_ok] at h
                obtain ⟨s2, hs2, h⟩ := h
                simp only [TEnv.side, casesVis, hs2, h, ok_bind]
              cases hoe : (if b.assigns res x then st.other else some en) with
              | none => rw [hoe] at hb2; cases hb2
              | some e2 =>
                rw [hoe] at hb2
                simp only at hb2
                rw [← hse] at hoe
                have hc' : casesChk res x bs e2 = some (if Stmt.assignsL res x bs then e2.after else e2) := by
                  simp [casesChk, hb2]
                obtain ⟨t1, t2, t3, t4, t0, t5⟩ := if_right hA hec hgb ih' hp hinv hse hen' hoe hc' hT1 h2
                refine ⟨t1, t2, fun h => t3 (by simpa [Stmt.assignsL] using h),
                  fun a h => t4 a (by simpa [Stmt.assignsL] using h), t0, fun ρ hρ => ⟨(t5 ρ hρ).1, fun hd hrec o o' ho ho' => ?_⟩⟩
                simp only [casesRun, Option.bind_eq_bind, Option.bind_eq_some_iff] at ho'
                obtain ⟨v, hv, ho'⟩ := ho'
                have hval := caseCond_val hv he
                cases c with
                | none =>
                  obtain ⟨w, hw, hwz⟩ := hval
                  refine (t5 ρ hρ).2 hd hrec o o' w ho hw ?_
                  rw [if_pos hwz]
                  simpa [seqRun] using ho'
                | some es =>
                  simp only [seqRun, Option.bind_eq_bind, Option.bind_eq_some_iff] at ho'
                  obtain ⟨hit, hhit, ho'⟩ := ho'
                  obtain ⟨w, hw, hwd⟩ := hval hit hhit
                  refine (t5 ρ hρ).2 hd hrec o o' w ho hw ?_
                  cases hit
                  · rw [if_neg (by simpa using hwd)]
                    simp only [casesRun, hv, Option.bind_eq_bind, Option.bind_some]
                    simpa using ho'
                  · rw [if_pos (by simpa using hwd)]; simpa using ho'
      · cases hchk

/-! ### All statements -/

theorem list_good {ss : List Stmt}
    (hss : ∀ s ∈ ss, Good A res (A.visit res x s) (s.chk res x) (fun ρ => nbRun ρ res x s) (s.assigns res x)) :
    Good A res (A.visitList res x ss) (Stmt.chkList res x ss) (fun ρ => nbRunList ρ res x ss) (Stmt.assignsL res x ss) := by
  induction ss with
  | nil =>
    intro p st T rec T' rec' st' hp h hc hinv
    simp only [TEnv.visitList, ok_inj, Prod.mk.injEq] at h
    obtain ⟨rfl, rfl⟩ := h
    simp only [Stmt.chkList, Option.some.injEq] at hc
    subst hc
    refine ⟨hinv, .inl rfl, fun h => (by simp [Stmt.assignsL] at h), fun _ _ => rfl, .refl, fun ρ _ => ⟨fun _ => rfl, fun hd hrec o o' ho ho' => ?_⟩⟩
    simp only [nbRunList, Option.some.injEq] at ho'
    subst ho'
    exact ⟨ho, hrec⟩
  | cons s ss ih =>
    intro p st T rec T' rec' st' hp h hc hinv
    simp only [TEnv.visitList, bind_ok] at h
    obtain ⟨⟨T1, rec1⟩, h1, h2⟩ := h
    simp only [Stmt.chkList, Option.bind_eq_bind, Option.bind_eq_some_iff] at hc
    obtain ⟨st1, hc1, hc2⟩ := hc
    obtain ⟨a1, a2, a3, a4, a0, a5⟩ := hss s (by simp) p st T rec T1 rec1 st1 hp h1 hc1 hinv
    obtain ⟨b1, b2, b3, b4, b0, b5⟩ := ih (fun s hs => hss s (by simp [hs])) p st1 T1 rec1 T' rec' st' hp h2 hc2 a1
    have hk : T' = T ∨ A.At T' p := by
      rcases b2 with rfl | b2
      · exact a2
      · exact .inr b2
    refine ⟨b1, hk, ?_, ?_, a0.trans b0, fun ρ hρ => ⟨fun hd => ?_, fun hd hrec o o' ho ho' => ?_⟩⟩
    · intro ha
      simp only [Stmt.assignsL, Bool.or_eq_true] at ha
      rcases b2 with rfl | b2
      · rcases ha with ha | ha
        · exact a3 ha
        · exact b3 ha
      · exact b2
    · intro hr ha
      simp only [Stmt.assignsL, Bool.or_eq_false_iff] at ha
      have e1 := a4 hr ha.1
      subst e1
      refine b4 ?_ ha.2
      -- the record stays empty
      have : ∀ (s : Stmt) (p : ExPath) (T : DF) (T' : DF) (r : Option DF), s.assigns res x = false →
          A.visit res x s p (T, none) = .ok (T', r) → r = none := by
        intro s p T T' r hs hv
        cases s <;> simp only [TEnv.visit] at hv
        case nb l rr =>
          simp only [Stmt.assigns] at hs
          rw [if_neg (by simp [hs])] at hv
          cases hv; rfl
        case ifs c t f =>
          split at hv
          · split at hv
            · cases hv; rfl
            · cases hv
          · simp only [bind_ok] at hv
            obtain ⟨U, -, hv⟩ := hv
            split at hv
            · cases hv; rfl
            · simp only [bind_ok] at hv
              obtain ⟨W, -, hv⟩ := hv
              cases hv; rfl
        case cases k c cs bs =>
          split at hv
          · simp only [bind_ok] at hv
            obtain ⟨U, -, hv⟩ := hv
            cases hv; rfl
          · cases hv; rfl
        case block n ss =>
          simp only [bind_ok] at hv
          obtain ⟨U, -, hv⟩ := hv
          cases hv; rfl
        all_goals first | (cases hv; rfl)
      subst hr
      exact this s p _ _ rec1 ha.1 h1
    · rw [(b5 ρ hρ).1 hd, (a5 ρ hρ).1 hd]
    · simp only [nbRunList, Option.bind_eq_bind, Option.bind_eq_some_iff] at ho'
      obtain ⟨m, hm, ho'⟩ := ho'
      obtain ⟨k1, k2⟩ := (a5 ρ hρ).2 hd hrec o m ho hm
      exact (b5 ρ hρ).2 hd k2 m o' k1 ho'

theorem isWhole_iff {l : Ex} : isWhole res x l = true ↔ ∃ n, l = .ident [] n ∧ res n = some x := by
  constructor
  · intro h
    unfold isWhole at h
    split at h
    · exact ⟨_, rfl, by simpa using h⟩
    · cases h
  · rintro ⟨n, rfl, h⟩
    simpa [isWhole] using h

theorem visit_good (hA : A.Norm) (s : Stmt) :
    Good A res (A.visit res x s) (s.chk res x) (fun ρ => nbRun ρ res x s) (s.assigns res x) := by
  induction s using Stmt.ind with
  | skip =>
    intro p st T rec T' rec' st' hp h hc hinv
    simp only [TEnv.visit, ok_inj, Prod.mk.injEq] at h
    obtain ⟨rfl, rfl⟩ := h
    simp only [Stmt.chk, Option.some.injEq] at hc
    subst hc
    refine ⟨hinv, .inl rfl, fun h => (by simp [Stmt.assigns] at h), fun _ _ => rfl, .refl, fun ρ _ => ⟨fun _ => rfl, fun hd hrec o o' ho ho' => ?_⟩⟩
    simp only [nbRun, Option.some.injEq] at ho'
    subst ho'
    exact ⟨ho, hrec⟩
  | nb l r =>
    intro p st T rec T' rec' st' hp h hc hinv
    simp only [Stmt.chk] at hc
    split at hc
    · by_cases hw : isWhole res x l = true
      · rw [if_pos hw] at hc
        simp only [TEnv.visit, if_pos hw, bind_ok, ok_inj, Prod.mk.injEq] at h
        obtain ⟨raw, hraw, T1, hT1, rfl, rfl⟩ := h
        have hst : st' = .valid := by cases st <;> simp [NbSt.assign] at hc <;> exact hc.symm
        subst hst
        have hadd : A.AddAt T p := by
          cases st <;> obtain ⟨h1, h2⟩ := hinv
          · exact h2.2.add
          · exact h2.2.add
          · exact h2.2
          · simp [NbSt.assign] at hc
          · exact h2.2.add
          · exact h2.2.add
        obtain ⟨g1, g2, g0, g3⟩ := put_sem (res := res) hA hp hinv.1 (hA.rhs _ _ hraw) hT1 hadd
        refine ⟨⟨g1, ⟨raw, rfl, hA.rhs _ _ hraw⟩, g2⟩, .inr g2, fun _ => g2, fun _ h => (by simp [Stmt.assigns, hw] at h), g0,
          fun ρ hρ => ⟨(g3 ρ hρ).2, fun hd hrec o o' ho ho' => ?_⟩⟩
        have e1 := (g3 ρ hρ).1 hd
        refine ⟨?_, fun _ v hv => by cases hv; exact e1⟩
        obtain ⟨n, rfl, hres⟩ := isWhole_iff.mp hw
        simp only [nbRun, if_pos hres, Option.map_eq_some_iff] at ho'
        obtain ⟨v, hv, rfl⟩ := ho'
        rw [e1]
        exact sched_of_sem (hρ.rhs r raw v hraw hv)
      · rw [if_neg hw] at hc
        simp only [Option.some.injEq] at hc
        subst hc
        simp only [TEnv.visit, if_neg hw, ok_inj, Prod.mk.injEq] at h
        obtain ⟨rfl, rfl⟩ := h
        have hf : (Stmt.nb l r).assigns res x = false := by simpa [Stmt.assigns] using hw
        refine ⟨hinv, .inl rfl, fun h => (by rw [hf] at h; cases h), fun _ _ => rfl, .refl, fun ρ _ => ⟨fun _ => rfl, fun hd hrec o o' ho ho' => ?_⟩⟩
        have := run_noassign _ o o' hf ho'
        subst this
        exact ⟨ho, hrec⟩
    · cases hc
  | ba l r => intro p st T rec T' rec' st' hp h hc; simp [Stmt.chk] at hc
  | ifs c t f iht ihf =>
    intro p st T rec T' rec' st' hp h hc hinv
    simp only [Stmt.chk] at hc
    split at hc
    · rename_i hsk
      simp only [Bool.and_eq_true] at hsk
      simp only [Option.some.injEq] at hc
      subst hc
      simp only [TEnv.visit, if_pos hsk.1, if_pos hsk.2, ok_inj, Prod.mk.injEq] at h
      obtain ⟨rfl, rfl⟩ := h
      have ht : t = .skip := by cases t <;> simp [Stmt.isSkip] at hsk ⊢
      have hf : f = .skip := by cases f <;> simp [Stmt.isSkip] at hsk ⊢
      subst ht hf
      have hf : (Stmt.ifs c .skip .skip).assigns res x = false := by simp [Stmt.assigns]
      refine ⟨hinv, .inl rfl, fun h => (by rw [hf] at h; cases h), fun _ _ => rfl, .refl, fun ρ _ => ⟨fun _ => rfl, fun hd hrec o o' ho ho' => ?_⟩⟩
      have := run_noassign _ o o' hf ho'
      subst this
      exact ⟨ho, hrec⟩
    · rename_i hsk
      split at hc
      · rename_i hcn
        simp only [Option.bind_eq_bind, Option.bind_eq_some_iff, Option.some.injEq] at hc
        obtain ⟨e, he, e', he', e2, he2, e2', he2', rfl⟩ := hc
        simp only [TEnv.visit] at h
        by_cases hts : t.isSkip = true
        · rw [if_pos hts] at h
          have : f.isSkip = false := by simpa [hts] using hsk
          simp [this] at h
        · rw [if_neg hts] at h
          simp only [bind_ok] at h
          obtain ⟨T1, hT1, h⟩ := h
          by_cases hfs : f.isSkip = true
          · rw [if_pos hfs] at h
            simp only [ok_inj, Prod.mk.injEq] at h
            obtain ⟨rfl, rfl⟩ := h
            have hf : f = .skip := by cases f <;> simp [Stmt.isSkip] at hfs ⊢
            subst hf
            obtain ⟨t1, t2, t3, t4, t0, t5⟩ := then_right hA hcn iht hp hinv he he' hT1
            refine good_after (asg := (Stmt.ifs c t .skip).assigns res x) (run := fun ρ => nbRun ρ res x (.ifs c t .skip)) hinv
              (fun ha ρ o o' => run_noassign _ o o' ha) ?_
            refine ⟨t1, t2, fun h => t3 (by simpa [Stmt.assigns] using h),
                fun a h => t4 a (by simpa [Stmt.assigns] using h), t0, fun ρ hρ => ⟨(t5 ρ hρ).1, fun hd hrec o o' ho ho' => ?_⟩⟩
            simp only [nbRun, Option.bind_eq_bind, Option.bind_eq_some_iff] at ho'
            obtain ⟨b, hb, ho'⟩ := ho'
            exact (t5 ρ hρ).2 hd hrec o o' b ho hb ho'
          · rw [if_neg hfs] at h
            simp only [bind_ok, ok_inj, Prod.mk.injEq] at h
            obtain ⟨T2, hT2, rfl, rfl⟩ := h
            obtain ⟨t1, t2, t3, t4, t0, t5⟩ := if_right hA hcn iht ihf hp hinv he he' he2 he2' hT1 hT2
            refine good_after (asg := (Stmt.ifs c t f).assigns res x) (run := fun ρ => nbRun ρ res x (.ifs c t f)) hinv
              (fun ha ρ o o' => run_noassign _ o o' ha) ?_
            refine ⟨t1, t2, t3, t4, t0, fun ρ hρ => ⟨(t5 ρ hρ).1, fun hd hrec o o' ho ho' => ?_⟩⟩
            simp only [nbRun, Option.bind_eq_bind, Option.bind_eq_some_iff] at ho'
            obtain ⟨b, hb, ho'⟩ := ho'
            exact (t5 ρ hρ).2 hd hrec o o' b ho hb ho'
      · cases hc
  | cases k comp cs bs ih =>
    intro p st T rec T' rec' st' hp h hc hinv
    simp only [Stmt.chk] at hc
    split at hc
    · rename_i hk
      obtain ⟨hk, hcomp, hcs, hdl, hlen⟩ := hk
      simp only [TEnv.visit, if_pos hk] at h
      obtain ⟨g1, g2, g3, g4, g0, g5⟩ := cases_good (x := x) hA hcomp ih cs hlen hcs p st T rec T' rec' st' hp h hc hinv
      refine ⟨g1, g2, g3, g4, g0, fun ρ hρ => ⟨(g5 ρ hρ).1, fun hd hrec o o' ho ho' => ?_⟩⟩
      refine (g5 ρ hρ).2 hd hrec o o' ho ?_
      simp only [nbRun, if_pos hk, Option.bind_eq_bind, Option.bind_eq_some_iff] at ho'
      obtain ⟨v, hv, i, hi, ho'⟩ := ho'
      simp only [casesRun, hv, Option.bind_eq_bind, Option.bind_some]
      exact chosen_seq hdl hlen hi ho'
    · cases hc
  | block n ss ih =>
    intro p st T rec T' rec' st' hp h hc hinv
    simp only [Stmt.chk, Option.bind_eq_bind, Option.bind_eq_some_iff, Option.some.injEq] at hc
    obtain ⟨st1, hc, rfl⟩ := hc
    simp only [TEnv.visit, bind_ok, ok_inj, Prod.mk.injEq] at h
    obtain ⟨⟨T1, rec1⟩, h, rfl, rfl⟩ := h
    have hinv' : NbInv A st.enterBlock p T none := by
      cases st <;> obtain ⟨h1, h2⟩ := hinv
      · exact ⟨h1, rfl, h2.2⟩
      · exact ⟨h1, rfl, h2.2⟩
      · exact ⟨h1, rfl, h2.2⟩
      · exact ⟨h1, rfl⟩
      · exact ⟨h1, rfl, h2.2⟩
      · exact ⟨h1, rfl, h2.2⟩
    obtain ⟨g1, g2, g3, g4, g0, g5⟩ := list_good ih p _ T none T1 rec1 st1 hp h hc hinv'
    refine good_after (asg := (Stmt.block n ss).assigns res x) (run := fun ρ => nbRun ρ res x (.block n ss)) hinv
      (fun ha ρ o o' => run_noassign _ o o' ha) ?_
    refine ⟨g1.1, g2, g3, fun _ h => g4 rfl h, g0, fun ρ hρ => ⟨(g5 ρ hρ).1, fun hd hrec o o' ho ho' => ?_⟩⟩
    exact ((g5 ρ hρ).2 hd (fun h v hv => by cases hv) o o' ho ho').1
  | fors a b c d e s _ => intro p st T rec T' rec' st' hp h hc; simp [Stmt.chk] at hc
  | whiles c s _ => intro p st T rec T' rec' st' hp h hc; simp [Stmt.chk] at hc

end Pyv
