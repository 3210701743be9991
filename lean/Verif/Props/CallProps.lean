import Verif.Props.CallSteps
/-
  C91: the values of expressions with function calls.
-/
namespace Pyv

section
variable {s s' s0 : BV} {mod C : ScopeChain} {f : Func} {look : Vals} {τ : Env} {FT : FuncTable}

/-- What the conversion of an expression leaves. -/
structure Conv (mod : ScopeChain) (s s' : BV) : Prop where
  inv : FnInv mod s'
  step : FStep (fun _ => False) s s'
  cur : s'.current = s.current

theorem Conv.trans {s1 : BV} (h : Conv mod s s1) (g : Conv mod s1 s') : Conv mod s s' := ⟨g.inv, h.step.trans g.step, g.cur.trans h.cur⟩

theorem Conv.refl (h : FnInv mod s) : Conv mod s s := ⟨h, .refl _ _, rfl⟩

theorem Conv.vals (hI : FnInv mod s) (h : Conv mod s s') : s'.valsAt mod τ = s.valsAt mod τ := by
  funext n
  simp only [BV.valsAt, h.step.resOf hI.modHas (fun h => h)]

/-- The equations of a part. -/
theorem solves_left {s1 : BV} (g : FStep (fun _ => False) s1 s') (h : s.Solves s' τ) : s.Solves s1 τ :=
  sol_solves (C := []).mp (Sol.back g (sol_solves.mpr h))

theorem solves_right {s1 : BV} (g : FStep (fun _ => False) s s1) (h : s.Solves s' τ) : s1.Solves s' τ := by
  intro n t hn
  refine h n t ?_
  cases hh : s.terms.has n with
  | false => rfl
  | true => rw [g.hasT hh] at hn; cases hn

/-- The claim about an expression. -/
def CallClaim (FT : FuncTable) (mod : ScopeChain) (τ : Env) (e : Ex) : Prop :=
  ∀ s t s', FnInv mod s → e.flat = true → BV.makeDFC FT mod e s = .ok (t, s') →
    Conv mod s s' ∧ (s.Solves s' τ → ∀ v, fxVal (s.valsAt mod τ) (FT.callVal mod (s.valsAt mod τ)) e = some v → sem τ t = some v)

/-- The scope of a new call. -/
theorem open_fn (hI : FnInv mod s) (hcov : f.covered = true) (ha : ∀ n, τ.arr n = none) {k : Nat} (h : s.openCall f k mod = .ok s') :
    ∃ C, s'.current = C ∧ s.frames.has C = false ∧ FStep (fun _ => False) s s' ∧ FnScope f (s.valsAt mod τ) τ mod C s s' ∧
      s'.valsAt mod τ = s.valsAt mod τ ∧
      s'.terms.has (C ++ [⟨f.name, .signal, none⟩]) = true ∧ (∀ p ∈ f.ports, s'.terms.has (C ++ [⟨p.name, .signal, none⟩]) = true) ∧ f.ports.length = k := by
  obtain ⟨hnd, hrg, hit, _⟩ := Func.coveredS hcov
  simp only [BV.openCall, bind_ok] at h
  obtain ⟨⟨l, s1⟩, hl, fr, hfr, s2, hpush, s3, hres, h⟩ := h
  obtain ⟨hsame, hc1, _⟩ := label_sameT hl
  have hsame2 : SameT s { s1 with current := mod } := ⟨hsame.terms, hsame.frames, hsame.binds, hsame.objs, hsame.nore⟩
  obtain ⟨p1, p2, p3, p4, p5, p6, p7, p8⟩ := push_fn (hsame2.inv hI) rfl hpush
  simp only at p3 p4 p5 p8 hfr
  have st2 : FStep (fun _ => False) s s2 := hsame2.step.trans p2
  have hC : s.frames.has (mod ++ [⟨l, .functioncall, none⟩]) = false := by
    have : s1.frames = s.frames := hsame.frames
    rw [← this]; exact p3
  have hfrA : fr.isAlways = false := by
    obtain ⟨m, h1, h2, h3, h4⟩ := hI.modf
    have := frame_get hfr
    rw [hsame.frames, h1] at this
    cases this; exact h3
  have hterm : s2.terms = s.terms := p6.trans hsame.terms
  have hS2 : FnScope f (s.valsAt mod τ) τ mod (mod ++ [⟨l, .functioncall, none⟩]) s s2 := by
    refine ⟨p1, .base _ _ rfl p5 rfl rfl hfrA rfl, hasOfGet p5, ?_, ?_, ?_, ?_, ?_⟩
    · intro n hn; rw [p8] at hn; cases hn
    · intro n w t _ ht; have := hasOfGet ht; rw [p8] at this; cases this
    · intro n v hv
      simp only [BV.valsAt, Option.bind_eq_some_iff] at hv
      rw [hterm]; exact hv
    · intro n hn; rw [hterm]; exact hn
    · intro k; rw [← hterm]; exact p8 k
  have hmem : (f.name, some f.ret) ∈ f.vars := by simp [Func.vars]
  obtain ⟨g1, g2, g3, g4, g5, g6⟩ := decl_fn hS2 ha p4 hnd hmem (hrg _ hmem) hres
  split at h
  · cases h
  next hlen =>
  have hps : ∀ p ∈ f.ports, DItem.var p ∈ f.items := by
    intro p hp
    simp only [Func.ports, List.mem_filterMap] at hp
    obtain ⟨d, hd, hp⟩ := hp
    split at hp
    · next v =>
      split at hp
      · cases hp; exact hd
      · cases hp
    · cases hp
  obtain ⟨i1, i2⟩ := ports_fn hcov ha f.ports hps _ _ g1 g3 h
  have hstep := FStep.drop hI st2 (g2.trans i1.step) hC
  refine ⟨_, i1.cur, hC, hstep, i1.scope, ?_, i1.step.hasT g4, i2, by simpa using hlen⟩
  funext n
  simp only [BV.valsAt, hstep.resOf hI.modHas (fun h => h)]

/-- What the arguments leave. -/
structure Bound (FT : FuncTable) (f : Func) (look : Vals) (τ : Env) (mod C : ScopeChain) (s0 s s' : BV) (es : List Ex) (ps : List Var) : Prop where
  scope : FnScope f look τ mod C s0 s'
  step : FStep (fun c => c = C) s s'
  cur : s'.current = C
  back : ∀ rest, Sol τ C s0 s' rest → Sol τ C s0 s (ps.map (·.name) ++ rest)
  args : ∀ rest, Sol τ C s0 s' rest → (∀ y ∈ rest, y ∉ ps.map (·.name)) → ∀ vs,
    fxValL look (FT.callVal mod look) es = some vs → ∀ n v v', ((ps.map (·.name)).zip vs).lookup n = some v → f.hold look n v = some v' →
      τ.sig (C ++ [⟨n, .signal, none⟩]) = some v'

theorem args_fn (hcov : f.covered = true) (ha : ∀ n, τ.arr n = none) : ∀ (es : List Ex), (∀ e ∈ es, CallClaim FT mod τ e) → Ex.flatL es = true →
    ∀ (ps : List Var) s s', es.length = ps.length → FnScope f look τ mod C s0 s → s.current = C → s.valsAt mod τ = look →
    (∀ p ∈ ps, DItem.var p ∈ f.items ∧ s.terms.has (C ++ [⟨p.name, .signal, none⟩]) = true) → (ps.map (·.name)).Nodup →
    BV.bindArgs FT mod es ps s = .ok s' → Bound FT f look τ mod C s0 s s' es ps := by
  obtain ⟨hnd, hrg, hit, _⟩ := Func.coveredS hcov
  intro es
  induction es with
  | nil =>
    intro _ _ ps s s' hlen hS hcur hlook _ _ h
    cases ps with
    | cons => simp at hlen
    | nil =>
      simp only [BV.bindArgs, ok_inj] at h
      subst h
      exact ⟨hS, .refl _ _, hcur, fun _ h => by simpa using h, fun rest _ _ vs _ n v v' h => by simp at h⟩
  | cons e es ih =>
    intro hcl hflat ps s s' hlen hS hcur hlook hps hpn h
    cases ps with
    | nil => simp at hlen
    | cons p ps =>
      simp only [List.length_cons, Nat.add_right_cancel_iff] at hlen
      simp only [Ex.flatL, Bool.and_eq_true] at hflat
      simp only [List.map_cons, List.nodup_cons] at hpn
      obtain ⟨hp1, hp2⟩ := hps p (by simp)
      simp only [BV.bindArgs, bind_ok] at h
      obtain ⟨dst, hdst, c, hc, ⟨t, s1⟩, ht, raw, hraw, s2, h2, h⟩ := h
      rw [hcur] at hdst hc
      have hs := hS.at_.search hS.inv p.name
      rw [resIn, if_pos hp2] at hs
      simp only [BV.nameDst, hs, ok_bind, ok_inj] at hdst
      subst hdst
      have := (hS.at_.quiet hS.inv).path c hc
      subst this
      obtain ⟨hconv, hval⟩ := hcl e (by simp) s t s1 hS.inv hflat.1 ht
      have hS1 := hS.away hconv.step hconv.inv
      -- the record
      simp only [BV.setDataflow, List.foldlM_cons, List.foldlM_nil, bind_ok, py_pure, ok_inj, BV.setDataflow1, BV.makeBind, bindTree, diffBranchTree, addTree,
        appendBranchTree, makeBranchTree, ne_eq, not_true_eq_false, false_and, if_false, ok_bind, gt_iff_lt, lt_self_iff_false, List.length_cons, List.length_nil, Nat.zero_add] at h2
      obtain ⟨s2', ⟨b, ⟨tr, htr, rfl⟩, rfl⟩, rfl⟩ := h2
      have hp3 := hconv.step.hasT hp2
      have hW := record_fn (C := C) hconv.inv (b := ⟨tr, C ++ [⟨p.name, .signal, none⟩], .none, .none, .none, [], none⟩) ⟨rfl, rfl, rfl⟩ hp3 rfl
      simp only at hW h
      generalize (s1.alloc ⟨tr, C ++ [⟨p.name, .signal, none⟩], .none, .none, .none, [], none⟩).addBindObj (C ++ [⟨p.name, .signal, none⟩]) s1.objs.length
        ⟨tr, C ++ [⟨p.name, .signal, none⟩], .none, .none, .none, [], none⟩ = s2 at *
      have hS2 : FnScope f look τ mod C s0 s2 := by
        refine ⟨hW.inv, hS1.at_.step_of hW.step, hW.step.hasF hS1.has, ?_, ?_, ?_, ?_, hS1.nothing⟩
        · rw [hW.terms]; exact hS1.only
        · rw [hW.terms]; exact hS1.dec
        · rw [hW.terms]; exact hS1.names
        · rw [hW.terms]; exact hS1.old
      have hstep : FStep (fun c => c = C) s s2 := (hconv.step.mono (fun _ h => h.elim)).trans hW.step
      have hlook2 : s2.valsAt mod τ = look := by
        rw [← hlook, ← hconv.vals hS.inv]
        funext n
        simp only [BV.valsAt, hW.terms]
      have B := ih (fun e' h' => hcl e' (by simp [h'])) hflat.2 ps s2 s' hlen hS2 (hW.cur.trans (hconv.cur.trans hcur)) hlook2
        (fun q hq => ⟨(hps q (by simp [hq])).1, hstep.hasT (hps q (by simp [hq])).2⟩) hpn.2 h
      have back2 : ∀ rest, Sol τ C s0 s2 rest → Sol τ C s0 s1 (p.name :: rest) := by
        intro rest g n t' hn ht' hr b hb hw m l v hm hl hv
        refine g n t' hn (by rw [hW.terms]; exact ht') (fun y hy => hr y (by simp [hy])) b ?_ hw m l v hm hl hv
        rw [hW.others n (hr p.name (by simp))]; exact hb
      refine ⟨B.scope, hstep.trans B.step, B.cur, ?_, ?_⟩
      · intro rest g
        have := Sol.back hconv.step (back2 _ (B.back rest g))
        simpa using this
      · intro rest g hr vs hvs n v v' hlk hold
        simp only [fxValL, Option.bind_eq_bind, Option.bind_eq_some_iff, Option.some.injEq] at hvs
        obtain ⟨x, hx, xs, hxs, rfl⟩ := hvs
        simp only [List.map_cons, List.zip_cons_cons, List.lookup] at hlk
        split at hlk
        · next e' =>
          simp only [beq_iff_eq] at e'
          subst e'
          simp only [Option.some.injEq] at hlk
          subst hlk
          have g2 := B.back rest g
          have g1 := back2 _ g2
          have hsol : s.Solves s1 τ := Sol.fwd hS.old hS.has hconv.step g1
          have hsem : sem τ t = some x := hval hsol x (by rw [hlook]; exact hx)
          have hsem2 : sem τ raw = some x := hconv.inv.quiet.finish ha hraw hsem
          have hsem3 : sem τ tr = some x := C14_reorder_value τ (hconv.inv.quiet.arrays ha).1 _ _ _ htr _ hsem2
          obtain ⟨tm, htm⟩ := get_some_of_has hp3
          simp only [Func.hold, Option.bind_eq_bind, Option.bind_eq_some_iff, Option.some.injEq] at hold
          obtain ⟨w, hw, r, hr', rfl⟩ := hold
          obtain ⟨a, b, q1, q2, q3, q4⟩ := hS1.dec _ w tm (lookup_of_mem hw) htm r hr'
          obtain ⟨bb, hb1, hb2, hb3⟩ := hW.new
          have := g2 _ tm (hS.nothing _) (by rw [hW.terms]; exact htm) (fun y hy e' => ?_) bb hb1 hb2 a b x q1 q3 (by rw [hb3]; exact hsem3)
          · rw [this, q2, q4]
          · obtain ⟨_, e'⟩ := snoc_inj e'
            simp only [ScopeLabel.mk.injEq, and_true] at e'
            subst e'
            rcases List.mem_append.mp hy with hy | hy
            · exact hpn.1 hy
            · exact hr _ hy (by simp)
        · refine B.args rest g (fun y hy h' => hr y hy (by simp; right; simpa using h')) xs hxs n v v' hlk hold

theorem ports_sub (h : f.covered = true) : (∀ p ∈ f.ports, DItem.var p ∈ f.items) ∧ (f.ports.map (·.name)).Nodup := by
  obtain ⟨hnd, -, -, -⟩ := Func.coveredS h
  constructor
  · intro p hp
    simp only [Func.ports, List.mem_filterMap] at hp
    obtain ⟨d, hd, hp⟩ := hp
    split at hp
    · next v =>
      split at hp
      · cases hp; exact hd
      · cases hp
    · cases hp
  · refine List.Sublist.nodup ?_ hnd
    simp only [Func.names, Func.vars, Func.ports, List.map_cons]
    refine List.Sublist.cons _ ?_
    generalize f.items = ds
    induction ds with
    | nil => simp
    | cons d ds ih =>
      cases d with
      | var v =>
        by_cases hk : v.kind = .input
        · simp only [List.filterMap_cons, hk, if_true, List.map_cons]
          exact ih.cons_cons _
        · simp only [List.filterMap_cons, hk, if_false, List.map_cons]
          exact ih.cons _
      | int n x => simp only [List.filterMap_cons, List.map_cons]; exact ih.cons _
      | _ => simpa [List.filterMap_cons] using ih

theorem search_fn {n : Str} (hI : FnInv mod s) {r : Option Func} (h : s.searchFunction FT n mod = .ok r) : r = FT.get? (mod ++ [⟨n, .function, none⟩]) := by
  obtain ⟨m, h1, h2, _⟩ := hI.modf
  rw [BV.searchFunction, dif_neg hI.ne] at h
  split at h
  · next f hf => simp only [ok_inj] at h; rw [hf, h]
  · next hf =>
    simp only [frame_ok h1, ok_bind, h2, if_true, ok_inj] at h
    rw [hf, h]

/-- A call. -/
theorem call_fn (hFT : ∀ n f, FT.get? (mod ++ [⟨n, .function, none⟩]) = some f → f.covered = true) (ha : ∀ n, τ.arr n = none) {n : Str} {es : List Ex}
    (hcl : ∀ e ∈ es, CallClaim FT mod τ e) : CallClaim FT mod τ (.call n es) := by
  intro s t s' hI hflat h
  simp only [Ex.flat] at hflat
  simp only [BV.makeDFC, bind_ok] at h
  obtain ⟨r, hr, h⟩ := h
  have hr := search_fn hI hr
  cases r with
  | none => simp only at h; cases h
  | some f =>
  simp only [bind_ok, ok_inj, Prod.mk.injEq] at h
  obtain ⟨s1, h1, s2, h2, s3, h3, rfl, rfl⟩ := h
  have hcov := hFT n f hr.symm
  obtain ⟨C, hcur, hC, hstep1, hS1, hlook, hhas, hports, hlen⟩ := open_fn hI hcov ha h1
  obtain ⟨hpi, hpn⟩ := ports_sub hcov
  obtain ⟨hnd, hrg, hit, as, has, hok⟩ := Func.coveredS hcov
  have B := args_fn hcov ha es hcl hflat f.ports s1 s2 hlen.symm hS1 hcur hlook (fun p hp => ⟨hpi p hp, hports p hp⟩) hpn h2
  simp only [BV.visitFunc, bind_ok] at h3
  obtain ⟨s2', h2', h3⟩ := h3
  obtain ⟨D, hv, hi⟩ := items_fn hcov ha f.items (fun _ h => h) s2 s2' B.scope B.cur h2'
  have hall : ∀ n ∈ f.names, s2'.terms.has (C ++ [⟨n, .signal, none⟩]) = true := by
    intro n hn
    simp only [Func.names, Func.vars, List.map_cons, List.mem_cons, List.mem_map, List.mem_filterMap] at hn
    rcases hn with rfl | ⟨⟨y, w⟩, ⟨d, hd, hw⟩, rfl⟩
    · exact D.step.hasT (B.step.hasT hhas)
    · split at hw
      · cases hw; exact hv _ hd
      · cases hw; exact hi _ _ hd
      · cases hw
  have R := ran_stmt ha f.body C s2' s3 as [] has (by simpa using hok) D.scope D.scope.at_ D.cur hall h3
  have same : SameT s3 { s3 with current := s.current } := ⟨rfl, rfl, rfl, rfl, rfl⟩
  refine ⟨⟨same.inv R.scope.inv, ?_, rfl⟩, ?_⟩
  · exact FStep.drop hI hstep1 ((B.step.trans (D.step.trans R.step)).trans same.step) hC
  · intro hsol v hval
    have hs3 : Sol τ C s s3 [] := sol_solves.mpr hsol
    simp only [fxVal, Option.bind_eq_bind, Option.bind_eq_some_iff] at hval
    obtain ⟨vs, hvs, hval⟩ := hval
    simp only [FuncTable.callVal, ← hr, Option.bind_eq_bind, Option.bind_some, Func.value, has] at hval
    have hs2 : Sol τ C s s2 (as.map Prod.fst) := by
      have := D.back _ (R.back _ hs3)
      simpa using this
    have hag : Agree f τ C (f.start (s.valsAt mod τ) vs) ((as ++ ([] : List (Str × Ex))).map (·.1)) := by
      intro n v hn hn' hst
      simp only [Func.start, inputs_eq, Option.bind_eq_some_iff] at hst
      obtain ⟨u, hu, hst⟩ := hst
      exact B.args _ hs2 (fun y hy => (stepsOK_names hok y hy).2) vs hvs n u v hu hst
    have := R.run _ (by simpa using hs3) hag
    rw [hcur]
    simp only [sem]
    exact this f.name v (by simp [Func.names, Func.vars]) (by simp) hval

/-- Every expression. -/
theorem callClaim (hFT : ∀ n f, FT.get? (mod ++ [⟨n, .function, none⟩]) = some f → f.covered = true) (ha : ∀ n, τ.arr n = none) (e : Ex) :
    CallClaim FT mod τ e := by
  have pure_case : ∀ (e : Ex), (∀ s t s', BV.makeDFC FT mod e s = .ok (t, s') → s' = s ∧ s.makeDF e mod = .ok t) →
      (∀ s : BV, ∀ v, fxVal (s.valsAt mod τ) (FT.callVal mod (s.valsAt mod τ)) e = some v → exVal τ (resOf s.terms mod) e = some v) → CallClaim FT mod τ e := by
    intro e h1 h2 s t s' hI hfl h
    obtain ⟨rfl, ht⟩ := h1 s t s' h
    exact ⟨.refl hI, fun _ v hv => hI.quiet.df ha hfl ht (h2 _ v hv)⟩
  induction e using Ex.ind with
  | ident sc n =>
    refine pure_case _ ?_ ?_
    · intro s t s' h
      simp only [BV.makeDFC, bind_ok, ok_inj, Prod.mk.injEq] at h
      obtain ⟨t', ht, rfl, rfl⟩ := h
      exact ⟨rfl, ht⟩
    · intro s v hv
      cases sc with
      | cons => simp [fxVal] at hv
      | nil => simpa [fxVal, exVal, BV.valsAt] using hv
  | intc a =>
    refine pure_case _ ?_ ?_
    · intro s t s' h
      simp only [BV.makeDFC, ok_inj, Prod.mk.injEq] at h
      obtain ⟨rfl, rfl⟩ := h
      exact ⟨rfl, by simp [BV.makeDF, ExprEnv.makeDF]⟩
    · intro s v hv
      simpa [fxVal, exVal, constVal, sem] using hv
  | fltc a =>
    refine pure_case _ ?_ (by intro s v hv; simp [fxVal] at hv)
    intro s t s' h
    simp only [BV.makeDFC, ok_inj, Prod.mk.injEq] at h
    obtain ⟨rfl, rfl⟩ := h
    exact ⟨rfl, by simp [BV.makeDF, ExprEnv.makeDF]⟩
  | strc a =>
    refine pure_case _ ?_ (by intro s v hv; simp [fxVal] at hv)
    intro s t s' h
    simp only [BV.makeDFC, ok_inj, Prod.mk.injEq] at h
    obtain ⟨rfl, rfl⟩ := h
    exact ⟨rfl, by simp [BV.makeDF, ExprEnv.makeDF]⟩
  | uplus e _ => intro s t s' hI hfl h; simp [BV.makeDFC] at h
  | un o e ih =>
    intro s t s' hI hfl h
    simp only [Ex.flat] at hfl
    simp only [BV.makeDFC, bind_ok, ok_inj, Prod.mk.injEq] at h
    obtain ⟨⟨e', s1⟩, he, r, hr, rfl, rfl⟩ := h
    obtain ⟨c1, v1⟩ := ih s e' s1 hI hfl he
    refine ⟨c1, fun hsol v hv => ?_⟩
    simp only [fxVal, Option.bind_eq_bind, Option.bind_eq_some_iff] at hv
    obtain ⟨x, hx, w, hw, hv⟩ := hv
    refine insertOpList_sem hr v ?_
    simp [sem, semList, v1 hsol x hx, hw, hv]
  | bin o a b iha ihb =>
    intro s t s' hI hfl h
    simp only [Ex.flat, Bool.and_eq_true] at hfl
    simp only [BV.makeDFC, bind_ok, ok_inj, Prod.mk.injEq] at h
    obtain ⟨⟨a', s1⟩, ha', ⟨b', s2⟩, hb', r, hr, rfl, rfl⟩ := h
    obtain ⟨c1, v1⟩ := iha s a' s1 hI hfl.1 ha'
    obtain ⟨c2, v2⟩ := ihb s1 b' s2 c1.inv hfl.2 hb'
    refine ⟨c1.trans c2, fun hsol v hv => ?_⟩
    simp only [fxVal, Option.bind_eq_bind, Option.bind_eq_some_iff] at hv
    obtain ⟨x, hx, y, hy, w, hw, hv⟩ := hv
    refine insertOpList_sem hr v ?_
    rw [c1.vals hI] at v2
    simp [sem, semList, v1 (solves_left c2.step hsol) x hx, v2 (solves_right c1.step hsol) y hy, hw, hv]
  | cond c t f ihc iht ihf =>
    intro s r s' hI hfl h
    simp only [Ex.flat, Bool.and_eq_true] at hfl
    simp only [BV.makeDFC, bind_ok] at h
    obtain ⟨⟨t', s1⟩, ht', ⟨f', s2⟩, hf', ⟨c', s3⟩, hc', h⟩ := h
    obtain ⟨c1, v1⟩ := iht s t' s1 hI hfl.1.2 ht'
    obtain ⟨c2, v2⟩ := ihf s1 f' s2 c1.inv hfl.2 hf'
    obtain ⟨c3, v3⟩ := ihc s2 c' s3 c2.inv hfl.1.1 hc'
    simp only at h
    split at h
    · cases h
    simp only [ok_inj, Prod.mk.injEq] at h
    obtain ⟨rfl, rfl⟩ := h
    refine ⟨c1.trans (c2.trans c3), fun hsol v hv => ?_⟩
    rw [c1.vals hI] at v2
    rw [c2.vals c1.inv, c1.vals hI] at v3
    simp only [fxVal, Option.bind_eq_bind, Option.bind_eq_some_iff] at hv
    obtain ⟨b, hb, hv⟩ := hv
    rw [sem_branch, v3 (solves_right (c1.trans c2).step hsol) b hb]
    simp only [Option.bind_eq_bind, Option.bind_some]
    split
    · rename_i e; rw [if_pos e] at hv; exact v1 (solves_left (c2.trans c3).step hsol) v hv
    · rename_i e; rw [if_neg e] at hv; exact v2 (solves_right c1.step (solves_left c3.step hsol)) v hv
  | psel w m l ihv ihm ihl =>
    intro s r s' hI hfl h
    simp only [Ex.flat, Bool.and_eq_true] at hfl
    simp only [BV.makeDFC, bind_ok, ok_inj, Prod.mk.injEq] at h
    obtain ⟨⟨w', s1⟩, hw', ⟨m', s2⟩, hm', ⟨l', s3⟩, hl', r', hr, rfl, rfl⟩ := h
    obtain ⟨c1, v1⟩ := ihv s w' s1 hI hfl.1.1 hw'
    obtain ⟨c2, v2⟩ := ihm s1 m' s2 c1.inv hfl.1.2 hm'
    obtain ⟨c3, v3⟩ := ihl s2 l' s3 c2.inv hfl.2 hl'
    refine ⟨c1.trans (c2.trans c3), fun hsol x hx => ?_⟩
    rw [c1.vals hI] at v2
    rw [c2.vals c1.inv, c1.vals hI] at v3
    simp only [fxVal, Option.bind_eq_bind, Option.bind_eq_some_iff] at hx
    obtain ⟨y, hy, a, ha', b, hb, hx⟩ := hx
    have hs : sem τ (.psel w' m' l') = some x := by
      simp [sem, v1 (solves_left (c2.trans c3).step hsol) y hy, v2 (solves_right c1.step (solves_left c3.step hsol)) a ha',
        v3 (solves_right (c1.trans c2).step hsol) b hb, hx]
    simp only at hr
    split at hr
    · exact insertPartselect_sem hr x hs
    · simp only [ok_inj] at hr; subst hr; exact hs
  | ptr w p ihv ihp =>
    intro s r s' hI hfl h
    simp only [Ex.flat, Bool.and_eq_true] at hfl
    simp only [BV.makeDFC, bind_ok] at h
    obtain ⟨⟨w', s1⟩, hw', ⟨p', s2⟩, hp', h⟩ := h
    obtain ⟨c1, v1⟩ := ihv s w' s1 hI hfl.1 hw'
    obtain ⟨c2, v2⟩ := ihp s1 p' s2 c1.inv hfl.2 hp'
    have hres : s' = s2 ∧ r = .psel w' p' p' := by
      simp only at h
      split at h
      · next n =>
        simp only [bind_ok, ok_inj, Prod.mk.injEq] at h
        obtain ⟨d, hd, rfl, rfl⟩ := h
        have : d = false := by
          have hA := c2.inv.quiet.arrays ha
          have := hasDims_agree hA hd
          cases d with
          | false => rfl
          | true => have := this.mp rfl; simp [ha] at this
        subst this
        exact ⟨rfl, rfl⟩
      · simp only [ok_inj, Prod.mk.injEq] at h
        exact ⟨h.2.symm, h.1.symm⟩
    obtain ⟨rfl, rfl⟩ := hres
    refine ⟨c1.trans c2, fun hsol x hx => ?_⟩
    rw [c1.vals hI] at v2
    simp only [fxVal, Option.bind_eq_bind, Option.bind_eq_some_iff] at hx
    obtain ⟨i, hi, y, hy, hx⟩ := hx
    simp [sem, v1 (solves_left c2.step hsol) y hy, v2 (solves_right c1.step hsol) i hi, psel_bit, hx]
  | concat es ih =>
    have hl : ∀ (ts : List Ex), (∀ t ∈ ts, t ∈ es) → Ex.flatL ts = true → ∀ (s : BV) xs s', FnInv mod s → BV.makeDFCL FT mod ts s = .ok (xs, s') →
        Conv mod s s' ∧ (s.Solves s' τ → ∀ vs, fxValL (s.valsAt mod τ) (FT.callVal mod (s.valsAt mod τ)) ts = some vs → semList τ xs = some vs) := by
      intro ts
      induction ts with
      | nil =>
        intro _ _ s xs s' hI h
        simp only [BV.makeDFCL, ok_inj, Prod.mk.injEq] at h
        obtain ⟨rfl, rfl⟩ := h
        exact ⟨.refl hI, fun _ vs hvs => by simpa [fxValL, semList] using hvs⟩
      | cons t ts iht =>
        intro hm hfl s xs s' hI h
        simp only [Ex.flatL, Bool.and_eq_true] at hfl
        simp only [BV.makeDFCL, bind_ok, ok_inj, Prod.mk.injEq] at h
        obtain ⟨⟨x, s1⟩, hx, ⟨xs', s2⟩, hxs, rfl, rfl⟩ := h
        obtain ⟨c1, v1⟩ := ih t (hm t (by simp)) s x s1 hI hfl.1 hx
        obtain ⟨c2, v2⟩ := iht (fun t' h' => hm t' (by simp [h'])) hfl.2 s1 xs' s2 c1.inv hxs
        refine ⟨c1.trans c2, fun hsol vs hvs => ?_⟩
        rw [c1.vals hI] at v2
        simp only [fxValL, Option.bind_eq_bind, Option.bind_eq_some_iff, Option.some.injEq] at hvs
        obtain ⟨y, hy, ys, hys, rfl⟩ := hvs
        simp [semList, v1 (solves_left c2.step hsol) y hy, v2 (solves_right c1.step hsol) ys hys]
    intro s r s' hI hfl h
    simp only [Ex.flat] at hfl
    simp only [BV.makeDFC, bind_ok, ok_inj, Prod.mk.injEq] at h
    obtain ⟨⟨xs, s1⟩, hxs, r', hr, rfl, rfl⟩ := h
    obtain ⟨c1, v1⟩ := hl es (fun _ h => h) hfl s xs s1 hI hxs
    refine ⟨c1, fun hsol x hx => ?_⟩
    simp only [fxVal, Option.bind_eq_bind, Option.bind_eq_some_iff] at hx
    obtain ⟨vs, hvs, hx⟩ := hx
    have hs : sem τ (.concat xs) = some x := by simp [sem, v1 hsol vs hvs, hx]
    simp only at hr
    split at hr
    · exact insertConcat_sem hr x hs
    · simp only [ok_inj] at hr; subst hr; exact hs
  | rep k w ihk ihw =>
    intro s r s' hI hfl h
    cases k with
    | intc a =>
      simp only [Ex.flat] at hfl
      simp only [BV.makeDFC, ok_bind, bind_ok, ok_inj, Prod.mk.injEq] at h
      obtain ⟨n, hn, ⟨w', s1⟩, hw', rfl, rfl⟩ := h
      obtain ⟨c1, v1⟩ := ihw s w' s1 hI hfl hw'
      refine ⟨c1, fun hsol x hx => ?_⟩
      simp only [fxVal, Option.bind_eq_bind, Option.bind_eq_some_iff] at hx
      obtain ⟨m, hm, y, hy, hx⟩ := hx
      have hm' : sem τ (.intc a) = some m := by simpa [constVal, sem] using hm
      have := hI.quiet.times hn hm'
      simp only [sem, semList_replicate (v1 hsol y hy), Option.bind_eq_bind, Option.bind_some]
      rw [← this]; exact hx
    | _ => simp [Ex.flat] at hfl
  | call n es ih => exact call_fn hFT ha ih
  | sys g es ih =>
    intro s t s' hI hfl h
    rw [BV.makeDFC.eq_def] at h
    simp only at h
    split at h
    · next hg =>
      cases es with
      | nil => cases h
      | cons e es =>
        simp only [Ex.flat, Ex.flatL, Bool.and_eq_true] at hfl
        obtain ⟨c1, v1⟩ := ih e (by simp) s t s' hI hfl.1 h
        refine ⟨c1, fun hsol v hv => v1 hsol v ?_⟩
        rw [fxVal.eq_def] at hv
        simp only at hv
        rw [if_pos hg] at hv
        exact hv
    · next hg =>
      simp only [ok_inj, Prod.mk.injEq] at h
      obtain ⟨rfl, rfl⟩ := h
      refine ⟨.refl hI, fun hsol v hv => ?_⟩
      rw [fxVal.eq_def] at hv
      simp only at hv
      rw [if_neg hg] at hv
      cases hv

end

end Pyv
