import Verif.Props.DstProps
/-
  C67: continuous and nonblocking assignments to parts, elements and concatenations.
-/
namespace Pyv

section
variable {s : BV} {mod : ScopeChain}

/-! ### Expressions at the level of a module -/

theorem BV.ModAt.search (hm : s.ModAt mod) (n : Str) : s.searchTerminal n mod = .ok (resOf s.terms mod n) := by
  obtain ⟨m, h1, h2, _⟩ := hm.frame
  exact search_mod hm.ne h1 h2 n

theorem BV.ModAt.resD (hm : s.ModAt mod) : s.resD mod = resOf s.terms mod := by
  funext n
  simp [BV.resD, hm.search n]

theorem BV.ModAt.noBlocking (hm : s.ModAt mod) (n : ScopeChain) (k : Nat) (bs : List Bind)
    (h : s.getBlockingAssign n k mod = .ok bs) : bs = [] := by
  obtain ⟨m, h1, _, h3, _⟩ := hm.frame
  cases k with
  | zero => simp [BV.getBlockingAssign] at h
  | succ k =>
    simp only [BV.getBlockingAssign, frame_ok h1, ok_bind, h3, Bool.false_eq_true, if_false, ok_inj] at h
    exact h.symm

theorem BV.ModAt.resolve {path : ScopeChain → Py CondPath} (hm : s.ModAt mod) {t r}
    (hr : (s.resEnv path mod).resolve t = .ok r) : s.flatR.resolve t = .ok r := by
  refine resolve_mono (R := s.resEnv path mod) (R' := s.flatR) ?_ (fun _ _ h => h) ?_ t r hr
  · intro n r hr
    simp only [BV.resEnv, bind_ok] at hr
    obtain ⟨g, hg, hr⟩ := hr
    have : g = false := by
      simp only [BV.isGenvar] at hg
      split at hg
      · cases hg
      · rename_i t ht; cases hg; exact hm.flat.2 _ _ ht
    subst this
    simp only [Bool.false_eq_true, if_false, bind_ok] at hr
    obtain ⟨bs, hbs, hr⟩ := hr
    rw [hm.noBlocking n _ _ hbs] at hr
    simpa [BV.flatR] using hr
  · intro n r hr
    rw [hm.noBlocking n _ _ hr]
    rfl

theorem BV.ModAt.makeDF {path : ScopeChain → Py CondPath} (hm : s.ModAt mod) {e t} (he : e.flat = true)
    (hr : (s.exprEnv (s.timesOf path mod) mod).makeDF e = .ok t) : (s.flatE mod).makeDF e = .ok t := by
  refine makeDF_mono (E := s.exprEnv (s.timesOf path mod) mod) (E' := s.flatE mod) ?_ (fun _ _ h => h) ?_ e he t hr
  · intro n r hr
    simp only [BV.exprEnv, hm.search] at hr
    exact hr
  · intro l r hr
    simp only [BV.exprEnv, BV.timesOf, bind_ok, hm.nore, Bool.false_eq_true, if_false] at hr
    obtain ⟨u, hu, u', hu', w, hw, hr⟩ := hr
    simp only [ResEnv.resolve, ok_inj] at hu
    subst hu
    have : u' = .intc l := reorder_nf_id (by simp [nf]) _ _ hu'
    subst this
    simp [BV.flatE, hw, ok_bind, hr]

theorem BV.ModAt.getTree (hm : s.ModAt mod) {ρ : Env} (ha : s.ArraysAgree ρ) {e r v} (he : e.flat = true)
    (hr : s.getTree e mod = .ok r) (hv : exVal ρ (resOf s.terms mod) e = some v) : sem ρ r = some v := by
  simp only [BV.getTree, hm.nore, Bool.false_eq_true, if_false, bind_ok] at hr
  obtain ⟨t, ht, u, hu, hr⟩ := hr
  refine (flatA_sound ha mod).1 e r v ?_ hv
  simp only [BV.flatA, hm.makeDF he ht, ok_bind, hm.resolve hu]
  exact hr

theorem BV.ModAt.path (hm : s.ModAt mod) {p} (h : s.path mod = .ok p) : p = [] := by
  obtain ⟨m, h1, h2, h3, h4⟩ := hm.frame
  unfold BV.path at h
  cases hf : s.fuel with
  | zero => rw [hf] at h; simp [BV.condflow] at h
  | succ k =>
    rw [hf] at h
    simp only [BV.condflow, bind_ok, ok_inj] at h
    obtain ⟨raw, hraw, cs, hcs, rs, hrs, rfl⟩ := h
    simp only [BV.rawConds, frame_ok h1, ok_bind, h4, h2, if_true, ok_inj] at hraw
    subst hraw
    simp only [List.mapM_nil, pure, Except.pure] at hcs
    cases hcs
    simp only [BV.resolveConds, ok_inj] at hrs
    subst hrs
    rfl

/-! ### Recording -/

/-- The references of a signal lead to assignments of that signal. -/
def BV.Objs (s : BV) : Prop := ∀ n ids, s.binds.get? n = some ids → ∀ i ∈ ids, ∃ b, s.objs[i]? = some b ∧ b.dest = n

/-- Same destination. -/
def Bind.at (b c : Bind) : Prop := c.dest = b.dest ∧ c.msb = b.msb ∧ c.lsb = b.lsb ∧ c.ptr = b.ptr

theorem mem_getBindlist {n : ScopeChain} {c : Bind} :
    c ∈ s.getBindlist n ↔ ∃ ids i, s.binds.get? n = some ids ∧ i ∈ ids ∧ s.objs[i]? = some c := by
  unfold BV.getBindlist BV.deref
  cases h : s.binds.get? n with
  | none => simp
  | some ids => simp [List.mem_filterMap]

structure Added (s s' : BV) (b : Bind) : Prop where
  objs : s'.Objs
  new : ∃ c ∈ s'.getBindlist b.dest, b.at c ∧ c.tree = b.tree
  old : ∀ n c, c ∈ s.getBindlist n → ¬ b.at c → c ∈ s'.getBindlist n
  others : ∀ n, n ≠ b.dest → s'.getBindlist n = s.getBindlist n
  same : s'.terms = s.terms ∧ s'.frames = s.frames ∧ s'.current = s.current ∧ s'.fuel = s.fuel

theorem addBindObj_added (b : Bind) (ho : s.Objs) : Added s ((s.alloc b).addBindObj b.dest s.objs.length b) b := by
  have hlen : ∀ (i : Nat) (b' : Bind), s.objs[i]? = some b' → (s.objs ++ [b])[i]? = some b' := by
    intro i b' h
    rw [List.getElem?_append_left (List.getElem?_eq_some_iff.mp h).1, h]
  have hnew : (s.objs ++ [b])[s.objs.length]? = some b := by simp
  have hder : ∀ n ids, s.binds.get? n = some ids → ids.filterMap (fun i => (s.objs ++ [b])[i]?) = ids.filterMap (fun i => s.objs[i]?) := by
    intro n ids h
    refine List.filterMap_congr fun i hi => ?_
    obtain ⟨c, hc, _⟩ := ho n ids h i hi
    rw [hc, hlen i c hc]
  simp only [BV.addBindObj]
  have hbinds : (s.alloc b).binds = s.binds := rfl
  rw [hbinds]
  -- appending the object to the references
  have happ : ∀ ids, s.binds.get? b.dest = some ids ∨ (s.binds.get? b.dest = none ∧ ids = []) →
      Added s { s.alloc b with binds := Dict.set s.binds b.dest (ids ++ [s.objs.length]) } b := by
    intro ids hids
    have hset : ∀ m, (Dict.set s.binds b.dest (ids ++ [s.objs.length])).get? m =
        if b.dest = m then some (ids ++ [s.objs.length]) else s.binds.get? m := fun m => by rw [Dict.get?_set]
    refine ⟨?_, ?_, ?_, ?_, rfl, rfl, rfl, rfl⟩
    · intro m is hm i hi
      simp only [hset] at hm
      split at hm
      · next e =>
        subst e
        cases hm
        rcases List.mem_append.mp hi with hi | hi
        · rcases hids with h | ⟨_, rfl⟩
          · obtain ⟨c, h1, h2⟩ := ho _ ids h i hi
            exact ⟨c, hlen _ _ h1, h2⟩
          · simp at hi
        · rw [List.mem_singleton] at hi
          subst hi
          exact ⟨b, hnew, rfl⟩
      · obtain ⟨c, h1, h2⟩ := ho m is hm i hi
        exact ⟨c, hlen _ _ h1, h2⟩
    · refine ⟨b, mem_getBindlist.mpr ⟨ids ++ [s.objs.length], s.objs.length, ?_, by simp, hnew⟩, ⟨rfl, rfl, rfl, rfl⟩, rfl⟩
      simp only [hset, if_true]
    · intro n c hc _
      obtain ⟨is, i, h1, h2, h3⟩ := mem_getBindlist.mp hc
      by_cases e : b.dest = n
      · subst e
        rcases hids with h | ⟨h, _⟩
        · rw [h] at h1; cases h1
          exact mem_getBindlist.mpr ⟨ids ++ [s.objs.length], i, by simp only [hset, if_true], by simp [h2], hlen _ _ h3⟩
        · rw [h] at h1; cases h1
      · exact mem_getBindlist.mpr ⟨is, i, by simp only [hset, if_neg e]; exact h1, h2, hlen _ _ h3⟩
    · intro n hn
      simp only [BV.getBindlist, BV.deref, hset, if_neg (Ne.symm hn)]
      cases h : s.binds.get? n with
      | none => rfl
      | some is => exact hder n is h
  cases hg : s.binds.get? b.dest with
  | none => exact happ [] (.inr ⟨hg, rfl⟩)
  | some ids =>
    simp only
    cases hj : (s.alloc b).findObj b.sameRange ids with
    | none => exact happ ids (.inl hg)
    | some j =>
      simp only
      have hj1 : j ∈ ids := List.mem_of_find?_eq_some hj
      obtain ⟨bj, hbj, hdj⟩ := ho _ ids hg j hj1
      have hsame : b.sameRange bj = true := by
        have := List.find?_some hj
        simp only [BV.alloc, hlen _ _ hbj] at this
        exact this
      have hat : b.at bj := by
        simp only [Bind.sameRange, decide_eq_true_eq] at hsame
        exact ⟨hdj, hsame⟩
      have hmod : ∀ i, ((s.alloc b).setTree j b.tree).objs[i]? =
          ((s.objs ++ [b])[i]?).map (fun a => if j = i then { a with tree := b.tree } else a) := by
        intro i
        simp only [BV.setTree, BV.alloc, List.getElem?_modify]
        cases (s.objs ++ [b])[i]? <;> simp
      refine ⟨?_, ?_, ?_, ?_, rfl, rfl, rfl, rfl⟩
      · intro m is hm i hi
        obtain ⟨c, h1, h2⟩ := ho m is hm i hi
        rw [hmod, hlen _ _ h1]
        refine ⟨_, rfl, ?_⟩
        split
        · exact h2
        · exact h2
      · refine ⟨{ bj with tree := b.tree }, mem_getBindlist.mpr ⟨ids, j, hg, hj1, ?_⟩, hat, rfl⟩
        rw [hmod, hlen _ _ hbj]
        simp
      · intro n c hc hne
        obtain ⟨is, i, h1, h2, h3⟩ := mem_getBindlist.mp hc
        refine mem_getBindlist.mpr ⟨is, i, h1, h2, ?_⟩
        rw [hmod, hlen _ _ h3]
        have : j ≠ i := by
          rintro rfl
          rw [hbj] at h3; cases h3
          exact hne hat
        simp [this]
      · intro n hn
        show ((s.binds.get? n).getD []).filterMap _ = ((s.binds.get? n).getD []).filterMap _
        cases h : s.binds.get? n with
        | none => rfl
        | some is =>
          refine List.filterMap_congr fun i hi => ?_
          obtain ⟨c, hc, hd⟩ := ho n is h i hi
          rw [hmod, hlen _ _ hc, hc]
          have : j ≠ i := by
            rintro rfl
            rw [hbj] at hc; cases hc
            exact hn (hd.symm.trans hdj)
          simp [this]

end

/-! ### One statement -/

/-- The assignment made for a destination without a condition. -/
def IsBind (s : BV) (raw : DF) (num : Nat) (d : PDst) (b : Bind) : Prop :=
  d.name = some b.dest ∧ b.msb = d.msb ∧ b.lsb = d.lsb ∧ b.ptr = d.ptr ∧
  ∃ t, s.reo raw = .ok t ∧ (if num > 1 then s.reo (.psel t d.pmsb d.plsb) else .ok t) = .ok b.tree

theorem setDataflow1_assign {s s1 : BV} {raw : DF} {num : Nat} {ty : Str} {d : PDst} (ho : s.Objs)
    (h : BV.setDataflow1 raw [] num none ty s d = .ok s1) : ∃ b, IsBind s raw num d b ∧ Added s s1 b := by
  simp only [BV.setDataflow1, bind_ok] at h
  obtain ⟨b, hb, h⟩ := h
  simp only [ok_inj] at h
  subst h
  unfold BV.makeBind at hb
  split at hb
  · cases hb
  · next n hn =>
    simp only [bindTree, diffBranchTree, addTree, appendBranchTree, makeBranchTree, ne_eq, not_true_eq_false, false_and, if_false,
      ok_bind, bind_ok] at hb
    obtain ⟨t, ht, t', ht', hb⟩ := hb
    simp only [ok_inj] at hb
    subst hb
    exact ⟨_, ⟨hn, rfl, rfl, rfl, t, ht, ht'⟩, addBindObj_added _ ho⟩

/-- What a statement with the assignments `bs` leaves. -/
structure AddedAll (s s' : BV) (bs : List Bind) : Prop where
  objs : s'.Objs
  new : bs.Pairwise (fun a b => ¬ a.at b) → ∀ b ∈ bs, ∃ c ∈ s'.getBindlist b.dest, b.at c ∧ c.tree = b.tree
  old : ∀ n c, c ∈ s.getBindlist n → (∀ b ∈ bs, ¬ b.at c) → c ∈ s'.getBindlist n
  others : ∀ n, (∀ b ∈ bs, n ≠ b.dest) → s'.getBindlist n = s.getBindlist n

theorem setDataflow_assign {raw : DF} {num : Nat} {ty : Str} (ps : List PDst) : ∀ {s s' : BV}, s.Objs →
    ps.foldlM (BV.setDataflow1 raw [] num none ty) s = .ok s' →
    ∃ bs, List.Forall₂ (IsBind s raw num) ps bs ∧ AddedAll s s' bs := by
  induction ps with
  | nil =>
    intro s s' ho h
    simp only [List.foldlM_nil, pure, Except.pure, ok_inj] at h
    subst h
    exact ⟨[], .nil, ho, by simp, fun n c h _ => h, fun _ _ => rfl⟩
  | cons d ps ih =>
    intro s s' ho h
    simp only [List.foldlM_cons, bind_ok] at h
    obtain ⟨s1, h1, h⟩ := h
    obtain ⟨b, hb, ha⟩ := setDataflow1_assign ho h1
    obtain ⟨bs, hbs, hall⟩ := ih ha.objs h
    have hfu : s1.reo = s.reo := by funext t; simp only [BV.reo, ha.same.2.2.2]
    have hbs' : List.Forall₂ (IsBind s raw num) ps bs := by
      refine hbs.imp fun d b hx => ?_
      unfold IsBind at hx ⊢
      rw [hfu] at hx
      exact hx
    refine ⟨b :: bs, .cons hb hbs', hall.objs, ?_, ?_, ?_⟩
    · intro hp b' hb'
      rw [List.pairwise_cons] at hp
      rcases List.mem_cons.mp hb' with rfl | hm
      · obtain ⟨c, hc, hat, ht⟩ := ha.new
        refine ⟨c, hall.old _ c hc ?_, hat, ht⟩
        intro b2 hb2 h2
        refine hp.1 b2 hb2 ?_
        obtain ⟨e1, e2, e3, e4⟩ := hat
        obtain ⟨f1, f2, f3, f4⟩ := h2
        exact ⟨f1.symm.trans e1, f2.symm.trans e2, f3.symm.trans e3, f4.symm.trans e4⟩
      · exact hall.new hp.2 b' hm
    · intro n c hc hno
      exact hall.old n c (ha.old n c hc (hno b (by simp))) (fun b' hb' => hno b' (by simp [hb']))
    · intro n hn
      rw [hall.others n (fun b' hb' => hn b' (by simp [hb'])), ha.others n (hn b (by simp))]

/-- The recorded assignment is one to the target. -/
def BindDenotes (s : BV) (ρ : Env) (b : Bind) (t : Target) : Prop := Denotes s ρ ⟨some b.dest, b.msb, b.lsb, b.ptr⟩ t

/-- The destinations of a statement: what they denote, their bounds and their slices. -/
theorem destinations_all {s s' : BV} {scope : ScopeChain} {ρ : Env} {val : Ex → Option Int} (ha : ArraysOK ρ)
    (hi : IndexSound s scope ρ val) {decl : ScopeChain → Option (Int × Int)} (hd : DeclOK s ρ decl) {l : Ex} {ps : List PDst}
    {ts : List Target} {rs : List (Int × Int)} (h : s.getDestinations l scope = .ok (ps, s'))
    (ht : targets val (s.resD scope) s.arrD l = some ts) (hr : List.Forall₂ (fun t r => Target.range decl t = some r) ts rs) :
    s' = s ∧ List.Forall₂ (fun (p : PDst) t => Denotes s ρ p.toDst t) ps ts.reverse ∧
    (ps.length ≠ 1 → List.Forall₂ (fun (p : PDst) (r : Int × Int) => IsVal ρ p.msb (some r.1) ∧ IsVal ρ p.lsb (some r.2)) ps rs.reverse ∧
      List.Forall₂ (Takes ρ) ps (slices 0 rs.reverse)) := by
  simp only [BV.getDestinations, bind_ok] at h
  obtain ⟨⟨ds, s1⟩, hds, h⟩ := h
  obtain ⟨rfl, hf⟩ := getDsts_denotes hi l ds s1 ts hds ht
  have hmulti : ∀ ps, s1.parts (.intc ['0']) ds.reverse = .ok ps → List.Forall₂ (fun (p : PDst) t => Denotes s1 ρ p.toDst t) ps ts.reverse ∧
      (ps.length ≠ 1 → List.Forall₂ (fun (p : PDst) (r : Int × Int) => IsVal ρ p.msb (some r.1) ∧ IsVal ρ p.lsb (some r.2)) ps rs.reverse ∧
      List.Forall₂ (Takes ρ) ps (slices 0 rs.reverse)) := by
    intro ps hp
    have hf' := List.rel_reverse hf
    have hr' := List.rel_reverse hr
    have h1 := parts_denote ds.reverse ts.reverse _ ps hf' hp
    refine ⟨h1.imp fun _ _ h => h.1, fun hx => ⟨?_, ?_⟩⟩
    · clear hx hp hf' hf hds ht hr
      generalize ts.reverse = us at h1 hr'
      generalize rs.reverse = qs at hr'
      induction h1 generalizing qs with
      | nil => cases hr'; exact .nil
      | cons h _ ih =>
        cases hr' with
        | cons g gs => exact .cons (h.2 decl hd _ g) (ih _ gs)
    · exact parts_slices ha hd ds.reverse ts.reverse _ 0 ps ⟨_, sem_zero ρ⟩ hf' hp _ hr'
  split at h
  · next d he =>
    simp only at he
    subst he
    simp only [ok_inj, Prod.mk.injEq] at h
    obtain ⟨rfl, rfl⟩ := h
    refine ⟨rfl, ?_, fun h => absurd rfl h⟩
    cases hf with
    | cons h1 h2 => cases h2; exact .cons h1.1 .nil
  · simp only [bind_ok, ok_inj, Prod.mk.injEq] at h
    obtain ⟨ps', hp, rfl, rfl⟩ := h
    exact ⟨rfl, hmulti _ hp⟩

theorem isVal_inj {ρ : Env} {t : DF} {a b : Option Int} (h : IsVal ρ t a) (g : IsVal ρ t b) : a = b := by
  cases a with
  | none =>
    cases b with
    | none => rfl
    | some v => exact absurd h (isVal_ne g)
  | some v =>
    cases b with
    | none => exact absurd g (isVal_ne h)
    | some u =>
      obtain ⟨w, h⟩ := h
      obtain ⟨w', g⟩ := g
      rw [h] at g
      simp only [Option.some.injEq, Prod.mk.injEq] at g
      rw [g.1]

/-- Where the bits of a target are: its signal, its element and the bits. -/
def Target.place (decl : ScopeChain → Option (Int × Int)) (t : Target) : ScopeChain × Option Int × Option (Int × Int) :=
  (t.sig, t.elem, t.range decl)

/-- The value of the tree recorded for a target. -/
theorem share_value {s : BV} {ρ : Env} (ha : ArraysOK ρ) {raw t u : DF} {v : Int × Int} {num : Nat} {d : PDst} {r : Int × Int}
    (ht : s.reo raw = .ok t) (hu : (if num > 1 then s.reo (.psel t d.pmsb d.plsb) else .ok t : Py DF) = .ok u)
    (hv : sem ρ raw = some v) (hr : num > 1 → Takes ρ d r) (y : Int × Int)
    (hy : (if num > 1 then pselVal v.1 r.1 r.2 else some v) = some y) : sem ρ u = some y := by
  have h1 := C14_reorder_value ρ ha _ _ _ ht _ hv
  by_cases hn : num > 1
  · rw [if_pos hn] at hu hy
    obtain ⟨⟨w1, g1⟩, ⟨w2, g2⟩⟩ := hr hn
    refine C14_reorder_value ρ ha _ _ _ hu _ ?_
    simp only [sem, h1, g1, g2, Option.bind_eq_bind, Option.bind_some]
    exact hy
  · rw [if_neg hn, ok_inj] at hu
    rw [if_neg hn, Option.some.injEq] at hy
    subst hu; subst hy
    exact h1

/-- An assignment to a target with its bits. -/
def Places (ρ : Env) (decl : ScopeChain → Option (Int × Int)) (b : Bind) (t : Target) : Prop :=
  b.dest = t.sig ∧ IsVal ρ b.ptr t.elem ∧ ∃ r, t.range decl = some r ∧ IsVal ρ b.msb (some r.1) ∧ IsVal ρ b.lsb (some r.2)

theorem places_apart {ρ : Env} {decl : ScopeChain → Option (Int × Int)} {bs : List Bind} {us : List Target}
    (h : List.Forall₂ (Places ρ decl) bs us) (hn : (us.map (Target.place decl)).Nodup) : bs.Pairwise (fun a b => ¬ a.at b) := by
  induction h with
  | nil => exact .nil
  | @cons b t bs us hb hbs ih =>
    rw [List.map_cons, List.nodup_cons] at hn
    refine .cons ?_ (ih hn.2)
    intro b' hb' hat
    apply hn.1
    have : ∃ t' ∈ us, Places ρ decl b' t' := by
      clear ih hn
      induction hbs with
      | nil => cases hb'
      | cons h _ ih =>
        rcases List.mem_cons.mp hb' with rfl | hm
        · exact ⟨_, by simp, h⟩
        · obtain ⟨t', h1, h2⟩ := ih hm
          exact ⟨t', by simp [h1], h2⟩
    obtain ⟨t', ht', g1, g2, r', g3, g4, g5⟩ := this
    obtain ⟨e1, e2, r, e3, e4, e5⟩ := hb
    obtain ⟨a1, a2, a3, a4⟩ := hat
    rw [a1] at g1; rw [a2] at g4; rw [a3] at g5; rw [a4] at g2
    have x1 := isVal_inj e4 g4
    have x2 := isVal_inj e5 g5
    have x3 := isVal_inj e2 g2
    refine List.mem_map.mpr ⟨t', ht', ?_⟩
    simp only [Option.some.injEq] at x1 x2
    have : r = r' := Prod.ext x1 x2
    subst this
    simp [Target.place, e3, g3, x3, ← g1, ← e1]

/-- An assignment has the bounds of a destination. -/
def AtDst (d : PDst) (b : Bind) : Prop := d.name = some b.dest ∧ b.msb = d.msb ∧ b.lsb = d.lsb ∧ b.ptr = d.ptr

theorem IsBind.atDst {s : BV} {raw : DF} {num : Nat} {d : PDst} {b : Bind} (h : IsBind s raw num d b) : AtDst d b :=
  ⟨h.1, h.2.1, h.2.2.1, h.2.2.2.1⟩

theorem binds_denote {s : BV} {ρ : Env} {ps : List PDst} {bs : List Bind} {us : List Target}
    (hbs : List.Forall₂ AtDst ps bs) (hden : List.Forall₂ (fun (p : PDst) t => Denotes s ρ p.toDst t) ps us) :
    List.Forall₂ (fun b t => b.dest = t.sig ∧ BindDenotes s ρ b t) bs us := by
  induction hbs generalizing us with
  | nil => cases hden; exact .nil
  | cons hb _ ih =>
    cases hden with
    | cons hx hxs =>
      refine .cons ?_ (ih hxs)
      obtain ⟨a1, a2, a3, a4⟩ := hb
      obtain ⟨b1, b2, b3⟩ := hx
      rw [a1] at b1
      have b1' := Option.some.inj b1
      refine ⟨b1', b1, ?_, ?_⟩
      · simpa only [a4] using b2
      · simpa only [a2, a3] using b3

theorem binds_places {s : BV} {ρ : Env} {decl : ScopeChain → Option (Int × Int)} {ps : List PDst}
    {bs : List Bind} {us : List Target} {qs : List (Int × Int)}
    (hbs : List.Forall₂ AtDst ps bs) (hden : List.Forall₂ (fun (p : PDst) t => Denotes s ρ p.toDst t) ps us)
    (hran : List.Forall₂ (fun (p : PDst) (r : Int × Int) => IsVal ρ p.msb (some r.1) ∧ IsVal ρ p.lsb (some r.2)) ps qs)
    (hrr : List.Forall₂ (fun t r => Target.range decl t = some r) us qs) : List.Forall₂ (Places ρ decl) bs us := by
  induction hbs generalizing us qs with
  | nil => cases hden; exact .nil
  | cons hb _ ih =>
    cases hden with
    | cons hx hxs =>
      cases hran with
      | cons hy hys =>
        cases hrr with
        | cons hz hzs =>
          refine .cons ?_ (ih hxs hys hzs)
          obtain ⟨a1, a2, a3, a4⟩ := hb
          obtain ⟨b1, b2, b3⟩ := hx
          rw [a1] at b1
          exact ⟨Option.some.inj b1, by simpa only [a4] using b2, _, hz, by simpa only [a2] using hy.1, by simpa only [a3] using hy.2⟩

/-- **C67** A continuous assignment in the body of a module is recorded for exactly the bits its left side designates,
each with its share of the value of the right side. `val` gives the values of the index expressions and `decl` the declared
bounds of the signals; the targets are different bits. -/
theorem C67_assign (s s' : BV) (mod : ScopeChain) (hm : s.AtModule mod) (ρ : Env) (ha : s.ArraysAgree ρ)
    (val : Ex → Option Int) (hi : IndexSound s mod ρ val) (decl : ScopeChain → Option (Int × Int)) (hd : DeclOK s ρ decl)
    (l r : Ex) (hr : r.flat = true) (v : Int × Int) (hv : exVal ρ (resOf s.terms mod) r = some v)
    (ts : List Target) (ht : targets val (resOf s.terms mod) s.arrD l = some ts)
    (rs : List (Int × Int)) (hrs : List.Forall₂ (fun t r => Target.range decl t = some r) ts rs)
    (hn : (ts.map (Target.place decl)).Nodup) (h : s.visitAssign l r = .ok s') :
    List.Forall₂ (fun t x => ∃ b ∈ s'.getBindlist t.sig, BindDenotes s ρ b t ∧ ∀ y, x = some y → sem ρ b.tree = some y)
      ts.reverse (shares v rs.reverse) ∧
    ∀ n, (∀ t ∈ ts, t.sig ≠ n) → s'.getBindlist n = s.getBindlist n := by
  simp only [BV.visitAssign, BV.addBind, hm.current, bind_ok] at h
  obtain ⟨⟨ps, s1⟩, hps, h⟩ := h
  obtain ⟨rfl, hden, hmul⟩ := destinations_all ha.1 hi hd hps (by rw [hm.resD]; exact ht) hrs
  simp only [hm.current] at h
  obtain ⟨p, hp, raw, hraw, h⟩ := h
  have := hm.path hp
  subst this
  have hrv := hm.getTree ha hr hraw hv
  obtain ⟨bs, hbs, hall⟩ := setDataflow_assign ps hm.objs h
  have hlen := hden.length_eq
  have hlen2 := hrs.length_eq
  -- the destinations of the assignments
  have hbd := binds_denote (hbs.imp fun _ _ h => h.atDst) hden
  refine ⟨?_, ?_⟩
  · by_cases h1 : ps.length = 1
    · -- one destination
      obtain ⟨d, rfl⟩ := List.length_eq_one_iff.mp h1
      rw [h1] at hlen
      rw [List.length_reverse] at hlen
      obtain ⟨t, rfl⟩ := List.length_eq_one_iff.mp hlen.symm
      rw [← hlen] at hlen2
      obtain ⟨q, rfl⟩ := List.length_eq_one_iff.mp hlen2.symm
      cases hbs with
      | @cons _ b _ _ hb hnil =>
        cases hnil
        simp only [List.reverse_cons, List.reverse_nil, List.nil_append, shares]
        refine .cons ?_ .nil
        obtain ⟨c, hc, hat, htree⟩ := hall.new (List.pairwise_singleton _ _) b (by simp)
        cases hbd with
        | cons hx _ =>
          refine ⟨c, ?_, ?_, ?_⟩
          · rw [← hx.1]; exact hc
          · unfold BindDenotes at hx ⊢
            obtain ⟨a1, a2, a3, a4⟩ := hat
            rw [a1, a2, a3, a4]
            exact hx.2
          · intro y hy
            obtain ⟨_, _, _, _, t', ht', hu⟩ := hb
            rw [htree]
            exact share_value (r := (0, 0)) ha.1 ht' hu hrv (fun h => by simp at h) y (by simpa using hy)
    · -- several destinations
      obtain ⟨hran, hsl⟩ := hmul h1
      have hsh : shares v rs.reverse = (slices 0 rs.reverse).map (fun r => pselVal v.1 r.1 r.2) := by
        unfold shares
        split
        · next q hq =>
          have := congrArg List.length hq
          simp at this hlen
          omega
        · rfl
      rw [hsh]
      have hpl := binds_places (hbs.imp fun _ _ h => h.atDst) hden hran (List.rel_reverse hrs)
      have hap := places_apart hpl (by rw [List.map_reverse]; exact List.nodup_reverse.mpr hn)
      have hnum : ∀ q qs, ps = q :: qs → ps.length > 1 := by
        rintro q qs rfl
        simp only [List.length_cons] at h1 ⊢
        omega
      have hrec := hall.new hap
      have hnum' : ps ≠ [] → ps.length > 1 := by
        intro hne
        cases hpp : ps with
        | nil => exact absurd hpp hne
        | cons q qs => rw [← hpp]; exact hnum q qs hpp
      generalize ps.length = num at hbs hnum'
      have hgen : ∀ us ks, num > 1 ∨ ps = [] → List.Forall₂ (fun b t => b.dest = t.sig ∧ BindDenotes s1 ρ b t) bs us → List.Forall₂ (Takes ρ) ps ks →
          List.Forall₂ (fun t x => ∃ b ∈ s'.getBindlist t.sig, BindDenotes s1 ρ b t ∧ ∀ y, x = some y → sem ρ b.tree = some y)
            us (ks.map (fun r => pselVal v.1 r.1 r.2)) := by
        clear hnum hnum' hap hpl hsl hran hsh hmul hn hrs hlen ht hps hall h hbd hden hlen2 h1
        induction hbs with
        | nil => intro us ks _ h1 h2; cases h1; cases h2; exact .nil
        | @cons d b ps bs hb _ ih =>
          intro us ks hnum h1 h2
          cases h1 with
          | cons hx hxs =>
            cases h2 with
            | cons hy hys =>
              have hnum : num > 1 := by rcases hnum with h | h; exact h; cases h
              refine .cons ?_ (ih (fun b hb => hrec b (by simp [hb])) _ _ (.inl hnum) hxs hys)
              obtain ⟨c, hc, hat, htree⟩ := hrec b (by simp)
              refine ⟨c, ?_, ?_, ?_⟩
              · rw [← hx.1]; exact hc
              · unfold BindDenotes at hx ⊢
                obtain ⟨a1, a2, a3, a4⟩ := hat
                rw [a1, a2, a3, a4]
                exact hx.2
              · intro y hyy
                obtain ⟨_, _, _, _, t', ht', hu⟩ := hb
                rw [htree]
                exact share_value ha.1 ht' hu hrv (fun _ => hy) y (by rw [if_pos hnum]; exact hyy)
      refine hgen _ _ ?_ hbd hsl
      by_cases hne : ps = []
      · exact .inr hne
      · exact .inl (hnum' hne)
  · intro n hno
    refine hall.others n ?_
    intro b hb
    have : ∃ t ∈ ts.reverse, b.dest = t.sig := by
      clear hno hall h hbs
      generalize ts.reverse = us at hbd
      induction hbd with
      | nil => cases hb
      | cons h _ ih =>
        rcases List.mem_cons.mp hb with rfl | hm
        · exact ⟨_, by simp, h.1⟩
        · obtain ⟨t', h1, h2⟩ := ih hm
          exact ⟨t', by simp [h1], h2⟩
    obtain ⟨t, ht, he⟩ := this
    rw [he]
    exact fun e => hno t (by simpa using ht) e.symm

/-! ### Nonblocking assignments -/

theorem getFrameAssign_fresh {d : Dict ScopeChain (List Bind)} {n : ScopeChain} {b : Bind}
    (h : ∀ c ∈ getFrameAssign d n, ¬ (c.msb = b.msb ∧ c.ptr = b.ptr)) (m : ScopeChain) :
    getFrameAssign (setFrameAssign d n b) m = getFrameAssign d m ++ if m = n then [b] else [] := by
  have hl : ∀ cs : List Bind, (∀ c ∈ cs, ¬ (c.msb = b.msb ∧ c.ptr = b.ptr)) → setFrameList cs b = cs ++ [b] := by
    intro cs
    induction cs with
    | nil => intro _; rfl
    | cons c cs ih =>
      intro h
      have hc := h c (by simp)
      rw [setFrameList, if_neg (by rintro ⟨h1, _, h3⟩; exact hc ⟨h1, h3⟩), ih (fun c hc => h c (by simp [hc]))]
      rfl
  unfold setFrameAssign getFrameAssign at *
  cases hg : d.get? n with
  | none =>
    simp only [Dict.get?_set]
    by_cases e : n = m
    · subst e; simp [hg]
    · simp [e, Ne.symm e]
  | some bs =>
    rw [hg] at h
    simp only [Dict.get?_set]
    by_cases e : n = m
    · subst e; simp only [if_true, Option.getD_some, hg]; exact hl bs h
    · simp [e, Ne.symm e]

/-- The record kept in the frame for a destination. -/
def IsNote (s : BV) (raw : DF) (num : Nat) (ai : AlwaysInfo) (d : PDst) (b : Bind) : Prop :=
  d.name = some b.dest ∧ b.msb = d.msb ∧ b.lsb = d.lsb ∧ b.ptr = d.ptr ∧ b.always = some ai ∧
  (if num > 1 then s.reo (.psel raw d.pmsb d.plsb) else .ok raw) = .ok b.tree

/-- The assignments noted in the current frame. -/
def BV.notes (s : BV) (n : ScopeChain) : List Bind :=
  match s.frames.get? s.current with
  | some f => getFrameAssign f.nonblocking n
  | none => []

theorem setDataflow1_note {s s1 : BV} {raw : DF} {p : CondPath} {num : Nat} {ty : Str} {ai : AlwaysInfo} {d : PDst}
    (h : BV.setDataflow1 raw p num (some ai) ty s d = .ok s1) : ∃ b, IsNote s raw num ai d b ∧ s1.fuel = s.fuel ∧
      ((∀ c ∈ s.notes b.dest, ¬ (c.msb = b.msb ∧ c.ptr = b.ptr)) → ∀ m, s1.notes m = s.notes m ++ if m = b.dest then [b] else []) := by
  simp only [BV.setDataflow1, bind_ok] at h
  obtain ⟨b, hb, h⟩ := h
  have hd : d.name = some b.dest := by
    unfold BV.makeBind at hb
    split at hb
    · cases hb
    · next n hn =>
      simp only [bind_ok, ok_inj] at hb
      obtain ⟨_, _, _, _, rfl⟩ := hb
      exact hn
  have hk : ∀ b : Bind, ((s.alloc b).addBindObj b.dest s.objs.length b).frames = s.frames ∧
      ((s.alloc b).addBindObj b.dest s.objs.length b).current = s.current ∧
      ((s.alloc b).addBindObj b.dest s.objs.length b).fuel = s.fuel := by
    intro b
    unfold BV.addBindObj
    split
    · exact ⟨rfl, rfl, rfl⟩
    · split <;> exact ⟨rfl, rfl, rfl⟩
  obtain ⟨k1, k2, k3⟩ := hk b
  unfold BV.setNonblocking at h
  simp only [bind_ok] at h
  obtain ⟨t, ht, h⟩ := h
  simp only [BV.addNonblocking, bind_ok, ok_inj] at h
  obtain ⟨f, hf, rfl⟩ := h
  refine ⟨⟨t, b.dest, d.msb, d.lsb, d.ptr, [], some ai⟩, ⟨hd, rfl, rfl, rfl, rfl, ?_⟩, k3, ?_⟩
  · simpa only [BV.reo, k3] using ht
  · intro hno m
    have hf' := frame_get hf
    rw [k1, k2] at hf'
    have e1 : s.notes = fun n => getFrameAssign f.nonblocking n := by funext n; simp [BV.notes, hf']
    rw [e1] at hno ⊢
    simp only [BV.notes, Dict.get?_set, if_true]
    exact getFrameAssign_fresh hno m

theorem setDataflow_notes {raw : DF} {p : CondPath} {num : Nat} {ty : Str} {ai : AlwaysInfo} (ps : List PDst) : ∀ {s s' : BV},
    ps.foldlM (BV.setDataflow1 raw p num (some ai) ty) s = .ok s' →
    ∃ bs, List.Forall₂ (IsNote s raw num ai) ps bs ∧
      ((∀ b ∈ bs, s.notes b.dest = []) → bs.Pairwise (fun a b => ¬ (a.dest = b.dest ∧ a.msb = b.msb ∧ a.ptr = b.ptr)) →
        ∀ m, s'.notes m = s.notes m ++ bs.filter (fun b => b.dest = m)) := by
  have gen : ∀ (ps : List PDst) {s s' : BV}, ps.foldlM (BV.setDataflow1 raw p num (some ai) ty) s = .ok s' →
    ∃ bs, List.Forall₂ (IsNote s raw num ai) ps bs ∧
      ((∀ b ∈ bs, ∀ c ∈ s.notes b.dest, ¬ (c.msb = b.msb ∧ c.ptr = b.ptr)) →
        bs.Pairwise (fun a b => ¬ (a.dest = b.dest ∧ a.msb = b.msb ∧ a.ptr = b.ptr)) →
        ∀ m, s'.notes m = s.notes m ++ bs.filter (fun b => b.dest = m)) := by
    intro ps
    induction ps with
    | nil =>
      intro s s' h
      simp only [List.foldlM_nil, pure, Except.pure, ok_inj] at h
      subst h
      exact ⟨[], .nil, by simp⟩
    | cons d ps ih =>
      intro s s' h
      simp only [List.foldlM_cons, bind_ok] at h
      obtain ⟨s1, h1, h⟩ := h
      obtain ⟨b, hb, hfu, hadd⟩ := setDataflow1_note h1
      obtain ⟨bs, hbs, hall⟩ := ih h
      have hre : s1.reo = s.reo := by funext t; simp only [BV.reo, hfu]
      refine ⟨b :: bs, .cons hb (hbs.imp fun d b hx => ?_), ?_⟩
      · unfold IsNote at hx ⊢
        rw [hre] at hx
        exact hx
      · intro hno hp m
        rw [List.pairwise_cons] at hp
        have hadd := hadd (hno b (by simp))
        rw [hall ?_ hp.2 m, hadd m]
        · by_cases e : b.dest = m
          · subst e; simp
          · simp [e, Ne.symm e]
        · intro b' hb' c hc
          rw [hadd] at hc
          rcases List.mem_append.mp hc with hc | hc
          · exact hno b' (by simp [hb']) c hc
          · split at hc
            · next e =>
              rw [List.mem_singleton] at hc
              subst hc
              intro ⟨e1, e2⟩
              exact hp.1 b' hb' ⟨e.symm, e1, e2⟩
            · cases hc
  intro s s' h
  obtain ⟨bs, h1, h2⟩ := gen ps h
  exact ⟨bs, h1, fun hno hp => h2 (fun b hb c hc => by rw [hno b hb] at hc; cases hc) hp⟩

theorem IsNote.atDst {s : BV} {raw : DF} {num : Nat} {ai : AlwaysInfo} {d : PDst} {b : Bind} (h : IsNote s raw num ai d b) : AtDst d b :=
  ⟨h.1, h.2.1, h.2.2.1, h.2.2.2.1⟩

/-- Where the top of a target is. -/
def Target.top (decl : ScopeChain → Option (Int × Int)) (t : Target) : ScopeChain × Option Int × Option Int :=
  (t.sig, t.elem, (t.range decl).map (·.1))

theorem notes_apart {ρ : Env} {decl : ScopeChain → Option (Int × Int)} {bs : List Bind} {us : List Target}
    (h : List.Forall₂ (Places ρ decl) bs us) (hn : (us.map (Target.top decl)).Nodup) :
    bs.Pairwise (fun a b => ¬ (a.dest = b.dest ∧ a.msb = b.msb ∧ a.ptr = b.ptr)) := by
  induction h with
  | nil => exact .nil
  | @cons b t bs us hb hbs ih =>
    rw [List.map_cons, List.nodup_cons] at hn
    refine .cons ?_ (ih hn.2)
    intro b' hb' hat
    apply hn.1
    have : ∃ t' ∈ us, Places ρ decl b' t' := by
      clear ih hn
      induction hbs with
      | nil => cases hb'
      | cons h _ ih =>
        rcases List.mem_cons.mp hb' with rfl | hm
        · exact ⟨_, by simp, h⟩
        · obtain ⟨t', h1, h2⟩ := ih hm
          exact ⟨t', by simp [h1], h2⟩
    obtain ⟨t', ht', g1, g2, r', g3, g4, g5⟩ := this
    obtain ⟨e1, e2, r, e3, e4, e5⟩ := hb
    obtain ⟨a1, a2, a4⟩ := hat
    rw [← a1] at g1; rw [← a2] at g4; rw [← a4] at g2
    have x1 := isVal_inj e4 g4
    have x3 := isVal_inj e2 g2
    refine List.mem_map.mpr ⟨t', ht', ?_⟩
    simp [Target.top, e3, g3, x3, ← g1, ← e1]
    simpa using x1.symm

/-- **C67** A nonblocking assignment is noted for exactly the bits its left side designates, each with its share of the value
`v` that the right side has there, together with the events of the always block. It is the first in its branch for these
signals, and the targets differ in their signal, element or most significant bit (the frame does not compare the least
significant one, C40). -/
theorem C67_nonblocking (s s' : BV) (ρ : Env) (ha : ArraysOK ρ) (val : Ex → Option Int) (hi : IndexSound s s.current ρ val)
    (decl : ScopeChain → Option (Int × Int)) (hd : DeclOK s ρ decl) (l r : Ex) (v : Int × Int)
    (hv : ∀ raw, s.getTree r s.current = .ok raw → sem ρ raw = some v)
    (ts : List Target) (ht : targets val (s.resD s.current) s.arrD l = some ts)
    (rs : List (Int × Int)) (hrs : List.Forall₂ (fun t r => Target.range decl t = some r) ts rs)
    (hn : (ts.map (Target.top decl)).Nodup) (hfree : ∀ t ∈ ts, s.notes t.sig = []) (ai : AlwaysInfo) (ty : Str)
    (h : s.addBind l r (some ai) ty = .ok s') :
    List.Forall₂ (fun t x => ∃ b ∈ s'.notes t.sig, BindDenotes s ρ b t ∧ b.always = some ai ∧ ∀ y, x = some y → sem ρ b.tree = some y)
      ts.reverse (shares v rs.reverse) ∧
    ∀ n, (∀ t ∈ ts, t.sig ≠ n) → s'.notes n = s.notes n := by
  simp only [BV.addBind, bind_ok] at h
  obtain ⟨⟨ps, s1⟩, hps, h⟩ := h
  obtain ⟨rfl, hden, hmul⟩ := destinations_all ha hi hd hps ht hrs
  obtain ⟨p, hp, raw, hraw, h⟩ := h
  have hrv := hv raw hraw
  obtain ⟨bs, hbs, hall⟩ := setDataflow_notes ps h
  have hlen := hden.length_eq
  have hlen2 := hrs.length_eq
  have hbd := binds_denote (hbs.imp fun _ _ h => h.atDst) hden
  have hsig : ∀ b ∈ bs, ∃ t ∈ ts, b.dest = t.sig := by
    intro b hb
    have : ∃ t ∈ ts.reverse, b.dest = t.sig := by
      clear hall h hbs
      generalize ts.reverse = us at hbd
      induction hbd with
      | nil => cases hb
      | cons h _ ih =>
        rcases List.mem_cons.mp hb with rfl | hm
        · exact ⟨_, by simp, h.1⟩
        · obtain ⟨t', h1, h2⟩ := ih hm
          exact ⟨t', by simp [h1], h2⟩
    obtain ⟨t, ht, he⟩ := this
    exact ⟨t, by simpa using ht, he⟩
  have hap : bs.Pairwise (fun a b => ¬ (a.dest = b.dest ∧ a.msb = b.msb ∧ a.ptr = b.ptr)) := by
    by_cases h1 : ps.length = 1
    · have := hbs.length_eq
      rw [h1] at this
      obtain ⟨b, rfl⟩ := List.length_eq_one_iff.mp this.symm
      exact List.pairwise_singleton _ _
    · exact notes_apart (binds_places (hbs.imp fun _ _ h => h.atDst) hden (hmul h1).1 (List.rel_reverse hrs))
        (by rw [List.map_reverse]; exact List.nodup_reverse.mpr hn)
  have hnotes := hall (fun b hb => by obtain ⟨t, h1, h2⟩ := hsig b hb; rw [h2]; exact hfree t h1) hap
  have hrec : ∀ b ∈ bs, b ∈ s'.notes b.dest := by
    intro b hb
    rw [hnotes]
    exact List.mem_append_right _ (List.mem_filter.mpr ⟨hb, by simp⟩)
  refine ⟨?_, ?_⟩
  · by_cases h1 : ps.length = 1
    · obtain ⟨d, rfl⟩ := List.length_eq_one_iff.mp h1
      rw [h1] at hlen
      rw [List.length_reverse] at hlen
      obtain ⟨t, rfl⟩ := List.length_eq_one_iff.mp hlen.symm
      rw [← hlen] at hlen2
      obtain ⟨q, rfl⟩ := List.length_eq_one_iff.mp hlen2.symm
      cases hbs with
      | @cons _ b _ _ hb hnil =>
        cases hnil
        simp only [List.reverse_cons, List.reverse_nil, List.nil_append, shares]
        refine .cons ?_ .nil
        cases hbd with
        | cons hx _ =>
          refine ⟨b, ?_, hx.2, hb.2.2.2.2.1, ?_⟩
          · rw [← hx.1]; exact hrec b (by simp)
          · intro y hy
            have hu := hb.2.2.2.2.2
            simp only [List.length_cons, List.length_nil, Nat.zero_add, gt_iff_lt, Nat.lt_irrefl, if_false, ok_inj] at hu
            rw [← hu, hrv, hy]
    · obtain ⟨hran, hsl⟩ := hmul h1
      have hsh : shares v rs.reverse = (slices 0 rs.reverse).map (fun r => pselVal v.1 r.1 r.2) := by
        unfold shares
        split
        · next q hq =>
          have := congrArg List.length hq
          simp at this hlen
          omega
        · rfl
      rw [hsh]
      have hnum : ps = [] ∨ ps.length > 1 := by
        cases ps with
        | nil => exact .inl rfl
        | cons q qs => simp only [List.length_cons] at h1 ⊢; exact .inr (by omega)
      generalize ps.length = num at hbs hnum
      have hgen : ∀ us ks, ps = [] ∨ num > 1 → List.Forall₂ (fun b t => b.dest = t.sig ∧ BindDenotes s1 ρ b t) bs us → List.Forall₂ (Takes ρ) ps ks →
          List.Forall₂ (fun t x => ∃ b ∈ s'.notes t.sig, BindDenotes s1 ρ b t ∧ b.always = some ai ∧ ∀ y, x = some y → sem ρ b.tree = some y)
            us (ks.map (fun r => pselVal v.1 r.1 r.2)) := by
        clear hp hraw hnum hap hsl hran hsh hmul hn hrs hlen ht hps hall h hbd hden hlen2 h1 hnotes hsig
        induction hbs with
        | nil => intro us ks _ h1 h2; cases h1; cases h2; exact .nil
        | @cons d b ps bs hb _ ih =>
          intro us ks hnum h1 h2
          cases h1 with
          | cons hx hxs =>
            cases h2 with
            | cons hy hys =>
              have hnum : num > 1 := by rcases hnum with h | h; cases h; exact h
              refine .cons ?_ (ih (fun b hb => hrec b (by simp [hb])) _ _ (.inr hnum) hxs hys)
              refine ⟨b, ?_, hx.2, hb.2.2.2.2.1, ?_⟩
              · rw [← hx.1]; exact hrec b (by simp)
              · intro y hyy
                have hu := hb.2.2.2.2.2
                rw [if_pos hnum] at hu
                obtain ⟨⟨w1, g1⟩, ⟨w2, g2⟩⟩ := hy
                refine C14_reorder_value ρ ha _ _ _ hu _ ?_
                simp only [sem, hrv, g1, g2, Option.bind_eq_bind, Option.bind_some]
                exact hyy
      exact hgen _ _ hnum hbd hsl
  · intro n hno
    rw [hnotes n]
    have : bs.filter (fun b => b.dest = n) = [] := by
      rw [List.filter_eq_nil_iff]
      intro b hb
      obtain ⟨t, h1, h2⟩ := hsig b hb
      have := hno t h1
      simpa [h2] using this
    rw [this, List.append_nil]

/-! ### The shares -/

theorem assemble_slices (v : Int) (rs : List (Int × Int)) (h : ∀ r ∈ rs, r.2 ≤ r.1) : ∀ o : Nat,
    assemble ((slices o rs).map (fun r => pselVal v r.1 r.2)) = some (v / 2 ^ o % 2 ^ totalBits rs) := by
  induction rs with
  | nil => intro o; simp [slices, assemble, totalBits, Int.emod_one]
  | cons r rs ih =>
    intro o
    obtain ⟨m, l⟩ := r
    have hl : l ≤ m := h (m, l) (by simp)
    obtain ⟨w, hw⟩ : ∃ w : Nat, m - l = w := ⟨(m - l).toNat, by omega⟩
    have ih := ih (fun r hr => h r (by simp [hr])) (o + (w + 1))
    have e1 : ((o : Int) + (m - l) + 1) = ((o + (w + 1) : Nat) : Int) := by rw [hw]; push_cast; ring
    simp only [slices, List.map_cons, assemble, e1, ih]
    have e2 : pselVal v ((o : Int) + (m - l)) o = some (v / 2 ^ o % 2 ^ (w + 1), (w : Int) + 1) := by
      unfold pselVal
      rw [if_neg (by omega), hw]
      have : ((o : Int) + w - o + 1).toNat = w + 1 := by omega
      rw [this]
      have : ((o : Int) + w - o + 1) = w + 1 := by omega
      rw [this]
      simp
    rw [e2]
    have e3 : totalBits ((m, l) :: rs) = (w + 1) + totalBits rs := by
      simp only [totalBits, List.map_cons, List.sum_cons, hw]
      congr 1
    rw [e3]
    have e4 : ((w : Int) + 1).toNat = w + 1 := by omega
    simp only [Option.bind_eq_bind, Option.bind_some, e4, Option.some.injEq]
    rw [pow_add (2 : Int) o, pow_add (2 : Int) (w + 1) (totalBits rs)]
    have hA : (0 : Int) < 2 ^ (w + 1) := by positivity
    have hO : (0 : Int) ≤ 2 ^ o := by positivity
    generalize (2 : Int) ^ (w + 1) = A at *
    generalize (2 : Int) ^ totalBits rs = B at *
    rw [← Int.ediv_ediv_of_nonneg hO]
    generalize v / 2 ^ o = x
    rw [Int.emod_def x A, Int.emod_def (x / A) B, Int.emod_def x (A * B), ← Int.ediv_ediv_of_nonneg hA.le]
    ring
/-- **C67** The shares of the targets of a concatenation, put together, give the value of the right side in as many bits as
the targets have together: nothing is lost, repeated or moved. -/
theorem C67_shares (v w : Int) (rs : List (Int × Int)) (h : ∀ r ∈ rs, r.2 ≤ r.1) (hl : rs.length ≠ 1) :
    assemble (shares (v, w) rs) = some (v % 2 ^ totalBits rs) := by
  have h0 := assemble_slices v rs h 0
  simp only [pow_zero, Int.ediv_one] at h0
  unfold shares
  split
  · simp at hl
  · exact h0

example : assemble (shares (693, 16) [(3, 0), (0, 0), (6, 3)]) = some (693 % 2 ^ 9) := by decide

/-! ### Examples -/

/-- The value of a literal index. -/
def litVal : Ex → Option Int
  | .intc l => if hasXZ l then none else match intConstEval l, intConstWidth l with | .ok v, .ok _ => some v | _, _ => none
  | _ => none

/-- Literal indices keep their values. -/
theorem index_literals (s : BV) (scope : ScopeChain) (ρ : Env) : IndexSound s scope ρ litVal := by
  intro e t u v ht hu hv
  cases e with
  | intc l =>
    simp only [BV.makeDF, ExprEnv.makeDF, ok_inj] at ht
    subst ht
    simp only [litVal] at hv
    split at hv
    · cases hv
    · next hx =>
      have hx' : hasXZ l = false := by simpa using hx
      split at hv
      · next a w ha hw =>
        simp only [Option.some.injEq] at hv
        subst hv
        cases hf : s.fuel with
        | zero => simp [BV.opt, OptCtx.optimize, hf, OptCtx.optConst, bind_ok] at hu
        | succ k =>
          simp only [BV.opt, OptCtx.optimize, hf, OptCtx.optConst, hx', Bool.false_eq_true, if_false, ha, hw, ok_bind, DF.evi,
            OptCtx.optHier, ok_inj] at hu
          subst hu
          exact ⟨w, by simp [sem]⟩
      · cases hv
  | _ => simp [litVal] at hv


/-- Terms: `x[7:0]`, `y` one bit, an array `m` of four-bit words, `a` sixteen bits. -/
def c67terms : Dict ScopeChain Term :=
  [(c58n "x", ⟨c58n "x", [.reg], .intc ['7'], .intc ['0'], none⟩), (c58n "y", ⟨c58n "y", [.reg], .intc ['0'], .intc ['0'], none⟩),
   (c58n "m", ⟨c58n "m", [.reg], .intc ['3'], .intc ['0'], some [(.intc ['0'], .intc ['7'])]⟩),
   (c58n "a", ⟨c58n "a", [.reg], .intc "15".toList, .intc ['0'], none⟩)]

/-- The visitor at the module. -/
def c67s : BV where
  frames := [(c58m, { previous := [], isModule := true })]
  current := c58m
  terms := c67terms
  octx := ⟨c67terms, [], 32, fun _ => none⟩
  fuel := 20

/-- A valuation: `a = 0x2b5`, the array is known. -/
def c67ρ : Env :=
  ⟨fun n => if n = c58n "a" then some (693, 16) else none, fun n => if n = c58n "m" then some (fun _ => some (0, 4)) else none, 32⟩

/-- `{x[6:3], y, m[2]}` -/
def c67l : Ex := .concat [.psel (c58i "x") (.intc ['6']) (.intc ['3']), c58i "y", .ptr (c58i "m") (.intc ['2'])]

/-- Declared bounds. -/
def c67decl (n : ScopeChain) : Option (Int × Int) :=
  if n = c58n "x" then some (7, 0) else if n = c58n "y" then some (0, 0) else if n = c58n "m" then some (3, 0)
  else if n = c58n "a" then some (15, 0) else none

theorem c67s_module : c67s.AtModule c58m where
  current := rfl
  ne := by decide
  frame := ⟨_, rfl, rfl, rfl, rfl⟩
  flat := by
    constructor
    · intro ls l n _
      cases ls <;> simp [c67s, c67terms, c58m, c58n, Dict.has]
    · intro n t h
      have := Dict.mem_of_get? h
      simp only [c67s, c67terms, List.mem_cons, List.not_mem_nil, or_false] at this
      rcases this with e | e | e | e <;> (cases e; rfl)
  nore := rfl
  objs := by intro n ids h; cases h

/-- The hypotheses of `C67_assign` hold for `assign {x[6:3], y, m[2]} = a;`: three targets, nine bits. -/
example : c67s.ArraysAgree c67ρ ∧ DeclOK c67s c67ρ c67decl ∧
    targets litVal (resOf c67s.terms c58m) c67s.arrD c67l =
      some [⟨c58n "x", none, some (6, 3)⟩, ⟨c58n "y", none, none⟩, ⟨c58n "m", some 2, none⟩] ∧
    shares (693, 16) [(3, 0), (0, 0), (6, 3)] = [some (5, 4), some (1, 1), some (5, 4)] ∧
    exVal c67ρ (resOf c67s.terms c58m) (c58i "a") = some (693, 16) ∧
    (match c67s.visitAssign c67l (c58i "a") with
      | .ok s' => (s'.getBindlist (c58n "x")).map (fun b => sem c67ρ b.tree)
      | .error _ => []) = [some (5, 4)] := by
  refine ⟨⟨?_, ?_⟩, ?_, ?_, by decide, by decide, ?_⟩
  · intro n f h
    simp only [c67ρ] at h ⊢
    split at h
    · next e => subst e; decide
    · cases h
  · intro n t h
    have := Dict.mem_of_get? h
    simp only [c67s, c67terms, List.mem_cons, List.not_mem_nil, or_false] at this
    rcases this with e | e | e | e <;> (cases e; decide)
  · intro n t r h hr
    have := Dict.mem_of_get? h
    simp only [c67s, c67terms, List.mem_cons, List.not_mem_nil, or_false] at this
    rcases this with e | e | e | e <;> (cases e; have hr := Option.some.inj hr; subst hr; exact ⟨⟨32, by decide⟩, ⟨32, by decide⟩⟩)
  · decide +kernel
  · decide +kernel

/-- The visitor in an always block without earlier assignments. -/
def c67a : BV := { c67s with
  frames := [(c58m ++ [⟨"al".toList, .always, none⟩], { previous := c58m, isAlways := true }), (c58m, { previous := [], isModule := true })]
  current := c58m ++ [⟨"al".toList, .always, none⟩] }

/-- The hypotheses of `C67_nonblocking` hold for `{x[6:3], y, m[2]} <= a;` in an always block. -/
example : targets litVal (c67a.resD c67a.current) c67a.arrD c67l =
      some [⟨c58n "x", none, some (6, 3)⟩, ⟨c58n "y", none, none⟩, ⟨c58n "m", some 2, none⟩] ∧
    (∀ n, c67a.notes n = []) ∧ (∀ raw, c67a.getTree (c58i "a") c67a.current = .ok raw → sem c67ρ raw = some (693, 16)) ∧
    (match c67a.addBind c67l (c58i "a") (some c58info) [] with
      | .ok s' => (s'.notes (c58n "m")).map (fun b => (sem c67ρ b.tree, b.always))
      | .error _ => []) = [(some (5, 4), some c58info)] := by
  refine ⟨by decide +kernel, fun n => rfl, ?_, by decide +kernel⟩
  intro raw h
  have : c67a.getTree (c58i "a") c67a.current = .ok (.term (c58n "a")) := by decide +kernel
  rw [this, ok_inj] at h
  subst h
  decide

end Pyv
