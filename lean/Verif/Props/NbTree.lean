import Verif.Props.NbSpec
/-
  C58, the tree of one signal: what the visit of a statement does to the tree and the record of a signal `x`
  (an intermediate machine between Binder.lean and the specification), and that it is right.
-/
namespace Pyv

/-- The conversions of conditions and right-hand sides, and `reorder`. -/
structure TEnv where
  rhs : Ex → Py DF
  cond : Ex → Py DF
  reo : DF → Py DF

/-- A path of conditions before conversion. -/
abbrev ExPath := List (Ex × Bool)

/-- The converted path. -/
def TEnv.path (A : TEnv) : ExPath → Py CondPath
  | [] => .ok []
  | (c, b) :: ps => do
    let c' ← A.cond c
    let ps' ← A.path ps
    .ok ((c', b) :: ps')

/-- The assignment of a tree along a path. -/
def TEnv.put (A : TEnv) (p : ExPath) (T raw : DF) : Py DF := do
  let p' ← A.path p
  bindTree A.reo T p' raw

/-- The copy of the record into a new frame. -/
def TEnv.copy (A : TEnv) (p : ExPath) (st : DF × Option DF) : Py (DF × Option DF) :=
  match st.2 with
  | none => .ok st
  | some v => do
    let T ← A.put p st.1 v
    .ok (T, some v)

/-- One side of a condition. -/
def TEnv.side (A : TEnv) (p : ExPath) (body : DF × Option DF → Py (DF × Option DF)) (rec : Option DF) (T : DF) : Py DF := do
  let st ← A.copy p (T, rec)
  let st' ← body st
  .ok st'.1

mutual
/-- The effect of a statement on the tree and the record of `x`. -/
def TEnv.visit (A : TEnv) (res : Str → Option ScopeChain) (x : ScopeChain) :
    Stmt → ExPath → DF × Option DF → Py (DF × Option DF)
  | .nb l r, p, st =>
    if isWhole res x l then do
      let raw ← A.rhs r
      let T ← A.put p st.1 raw
      .ok (T, some raw)
    else .ok st
  | .ifs c t f, p, st =>
    if t.isSkip then (if f.isSkip then .ok st else .error .type)
    else do
      let T1 ← A.side (p ++ [(c, true)]) (A.visit res x t (p ++ [(c, true)])) st.2 st.1
      if f.isSkip then .ok (T1, st.2)
      else do
        let T2 ← A.side (p ++ [(c, false)]) (A.visit res x f (p ++ [(c, false)])) st.2 T1
        .ok (T2, st.2)
  | .cases k comp cs bs, p, st =>
    if k = .case_ ∨ k = .casex then do
      let T ← A.visitCases res x comp bs cs p st
      .ok (T, st.2)
    else .ok st
  | .block _ ss, p, st => do
    let st' ← A.visitList res x ss p (st.1, none)
    .ok (st'.1, st.2)
  | _, _, st => .ok st
/-- The statements of a list. -/
def TEnv.visitList (A : TEnv) (res : Str → Option ScopeChain) (x : ScopeChain) :
    List Stmt → ExPath → DF × Option DF → Py (DF × Option DF)
  | [], _, st => .ok st
  | s :: ss, p, st => do
    let st' ← A.visit res x s p st
    A.visitList res x ss p st'
/-- The items of a case statement. -/
def TEnv.visitCases (A : TEnv) (res : Str → Option ScopeChain) (x : ScopeChain) (comp : Ex) :
    List Stmt → List (Option (List Ex)) → ExPath → DF × Option DF → Py DF
  | b :: bs, c :: cs, p, st => do
    let e ← caseCond comp c
    let T1 ← A.side (p ++ [(e, true)]) (A.visit res x b (p ++ [(e, true)])) st.2 st.1
    if bs.isEmpty then .ok T1
    else do
      let st' ← A.copy (p ++ [(e, false)]) (T1, st.2)
      A.visitCases res x comp bs cs (p ++ [(e, false)]) st'
  | _, _, _, st => .ok st.1
end

/-- The decision of a path of conditions. -/
def exDec (ρ : Env) (res : Str → Option ScopeChain) : ExPath → Option Bool
  | [] => some true
  | (c, b) :: ps => do
    let v ← exVal ρ res c
    if decide (v.1 ≠ 0) = b then exDec ρ res ps else some false

theorem exDec_append (ρ : Env) (res) (ps qs : ExPath) :
    exDec ρ res (ps ++ qs) = (do let b ← exDec ρ res ps; if b then exDec ρ res qs else some false) := by
  induction ps with
  | nil => simp [exDec]
  | cons q ps ih =>
    obtain ⟨p, b⟩ := q
    simp only [List.cons_append, exDec]
    cases exVal ρ res p with
    | none => simp
    | some v =>
      simp only [Option.bind_eq_bind, Option.bind_some]
      split
      · rw [ih]; rfl
      · simp

/-- The conversions keep values. -/
structure TEnv.Sound (A : TEnv) (ρ : Env) (res : Str → Option ScopeChain) : Prop where
  rhs : ∀ e t v, A.rhs e = .ok t → exVal ρ res e = some v → sem ρ t = some v
  cond : ∀ e t v, A.cond e = .ok t → exVal ρ res e = some v → sem ρ t = some v

/-- The conversions give trees that `reorder` keeps. -/
structure TEnv.Norm (A : TEnv) : Prop where
  rhs : ∀ e t, A.rhs e = .ok t → nf true t
  cond : ∀ e t, A.cond e = .ok t → e.noCond = true → nf false t
  reo : ∀ t r, A.reo t = .ok r → nf true t → r = t

theorem TEnv.path_append {A : TEnv} {p q : ExPath} {r : CondPath} (h : A.path (p ++ q) = .ok r) :
    ∃ p' q', A.path p = .ok p' ∧ A.path q = .ok q' ∧ r = p' ++ q' := by
  induction p generalizing r with
  | nil => exact ⟨[], r, rfl, h, rfl⟩
  | cons a p ih =>
    obtain ⟨c, b⟩ := a
    simp only [List.cons_append, TEnv.path, bind_ok, ok_inj] at h
    obtain ⟨c', hc, ps', hps, rfl⟩ := h
    obtain ⟨p', q', h1, h2, rfl⟩ := ih hps
    exact ⟨(c', b) :: p', q', by simp [TEnv.path, hc, h1, ok_bind], h2, rfl⟩

theorem TEnv.path_append_ok {A : TEnv} {p q : ExPath} {p' q' : CondPath} (h1 : A.path p = .ok p') (h2 : A.path q = .ok q') :
    A.path (p ++ q) = .ok (p' ++ q') := by
  induction p generalizing p' with
  | nil => simp only [TEnv.path, ok_inj] at h1; subst h1; exact h2
  | cons a p ih =>
    obtain ⟨c, b⟩ := a
    simp only [TEnv.path, bind_ok, ok_inj] at h1
    obtain ⟨c', hc, ps', hps, rfl⟩ := h1
    simp [TEnv.path, hc, ih hps, ok_bind]

theorem TEnv.dec_path {A : TEnv} {ρ res} (hA : A.Sound ρ res) {p : ExPath} {p' : CondPath} (h : A.path p = .ok p') {b}
    (hd : exDec ρ res p = some b) : pathDec ρ p' = some b := by
  induction p generalizing p' with
  | nil => simp only [TEnv.path, ok_inj] at h; subst h; simpa [exDec, pathDec] using hd
  | cons a p ih =>
    obtain ⟨c, d⟩ := a
    simp only [TEnv.path, bind_ok, ok_inj] at h
    obtain ⟨c', hc, ps', hps, rfl⟩ := h
    simp only [exDec, Option.bind_eq_bind, Option.bind_eq_some_iff] at hd
    obtain ⟨v, hv, hd⟩ := hd
    simp only [pathDec, hA.cond c c' v hc hv, Option.bind_eq_bind, Option.bind_some]
    split
    · rename_i e; rw [if_pos e] at hd; exact ih hps hd
    · rename_i e; rw [if_neg e] at hd; exact hd

/-! ### Shape of the trees -/

/-- All conditions are plain. -/
def PathNf (p : CondPath) : Prop := ∀ q ∈ p, nf false q.1

theorem append_nf {t : DF} {bs : List Bool} {a r : DF} (ht : nf true t) (ha : nf true a)
    (h : appendBranchTree t bs a = .ok r) : nf true r := by
  induction bs generalizing t r with
  | nil => simp only [appendBranchTree, ok_inj] at h; subst h; exact ha
  | cons b bs ih =>
    cases t <;> cases b <;> simp only [appendBranchTree, bind_ok, ok_inj, reduceCtorEq] at h
    · obtain ⟨u, hu, rfl⟩ := h
      exact ⟨rfl, ht.2.1, ht.2.2.1, ih ht.2.2.2 hu⟩
    · obtain ⟨u, hu, rfl⟩ := h
      exact ⟨rfl, ht.2.1, ih ht.2.2.1 hu, ht.2.2.2⟩

theorem makeBranch_nf {p : CondPath} {n : DF} (hp : PathNf p) (hn : nf true n) : nf true (makeBranchTree p n) := by
  induction p with
  | nil => exact hn
  | cons q p ih =>
    obtain ⟨c, b⟩ := q
    have h1 := hp (c, b) (by simp)
    have h2 := ih (fun q hq => hp q (by simp [hq]))
    cases b
    · exact ⟨rfl, h1, by simp [nf], h2⟩
    · exact ⟨rfl, h1, h2, by simp [nf]⟩

theorem addTree_nf {r raw a : DF} {p : CondPath} (hr : nf true r) (hp : PathNf p) (hraw : nf true raw)
    (h : addTree r p raw = .ok a) : nf true a := by
  simp only [addTree] at h
  split at h
  · exact append_nf (makeBranch_nf hp hraw) hr h
  · simp only [ok_inj] at h; subst h; exact makeBranch_nf hp hraw

theorem diff_nf {t : DF} {p : CondPath} (ht : nf true t) : nf true (diffBranchTree t p).1 := by
  induction p generalizing t with
  | nil => cases t <;> simpa [diffBranchTree] using ht
  | cons q p ih =>
    obtain ⟨c, b⟩ := q
    cases t <;> simp only [diffBranchTree] <;> try exact ht
    split
    · exact ht
    · cases b
      · exact ih ht.2.2.2
      · exact ih ht.2.2.1

theorem preTree_nf {cur raw t : DF} {p : CondPath} (hc : nf true cur) (hp : PathNf p) (hr : nf true raw)
    (h : preTree cur p raw = .ok t) : nf true t := by
  simp only [preTree, bind_ok] at h
  obtain ⟨a, ha, h⟩ := h
  refine append_nf hc (addTree_nf (diff_nf hc) ?_ hr ha) h
  intro q hq
  refine hp q ?_
  rw [diff_split] at hq
  have := splitAlong_append cur p
  rw [← this]
  exact List.mem_append_right _ hq

/-- Conditions of a path that `reorder` keeps. -/
def ExPathOK (p : ExPath) : Prop := ∀ q ∈ p, q.1.noCond = true

theorem TEnv.path_nf {A : TEnv} (hA : A.Norm) {p : ExPath} {p' : CondPath} (hp : ExPathOK p) (h : A.path p = .ok p') : PathNf p' := by
  induction p generalizing p' with
  | nil => simp only [TEnv.path, ok_inj] at h; subst h; intro q hq; simp at hq
  | cons a p ih =>
    obtain ⟨c, d⟩ := a
    simp only [TEnv.path, bind_ok, ok_inj] at h
    obtain ⟨c', hc, ps', hps, rfl⟩ := h
    intro q hq
    rcases List.mem_cons.mp hq with rfl | hq
    · exact hA.cond c c' hc (hp (c, d) (by simp))
    · exact ih (fun q hq => hp q (by simp [hq])) hps q hq

/-- What an assignment along a path does. -/
theorem TEnv.put_spec {A : TEnv} (hA : A.Norm) {p : ExPath} {T raw T' : DF} (hp : ExPathOK p) (hT : nf true T) (hr : nf true raw)
    (h : A.put p T raw = .ok T') :
    ∃ p', A.path p = .ok p' ∧ preTree T p' raw = .ok T' ∧ nf true T' ∧ subAt T' p' = some raw := by
  simp only [TEnv.put, bind_ok] at h
  obtain ⟨p', hp', h⟩ := h
  obtain ⟨t, ht, hs, -⟩ := preTree_spec T p' raw
  rw [bindTree_pre, ht, ok_bind] at h
  have hn := preTree_nf hT (TEnv.path_nf hA hp hp') hr ht
  have := hA.reo _ _ h hn
  subst this
  exact ⟨p', hp', ht, hn, hs⟩

/-- The tree follows the path. -/
def TEnv.At (A : TEnv) (T : DF) (p : ExPath) : Prop := ∃ p' r, A.path p = .ok p' ∧ subAt T p' = some r

/-- The tree assigns nothing where it leaves the path. -/
def TEnv.FreshAt (A : TEnv) (T : DF) (p : ExPath) : Prop := ∀ p', A.path p = .ok p' → subAt T (splitAlong T p').1 = some .none

/-- The tree can take an assignment along the path. -/
def TEnv.AddAt (A : TEnv) (T : DF) (p : ExPath) : Prop := ∀ p', A.path p = .ok p' → CanAdd T p'

theorem TEnv.At.prefix {A : TEnv} {T : DF} {p q : ExPath} (h : A.At T (p ++ q)) : A.At T p := by
  obtain ⟨r, s, hr, hs⟩ := h
  obtain ⟨p', q', h1, h2, rfl⟩ := TEnv.path_append hr
  refine ⟨p', (subAt T p').getD .none, h1, ?_⟩
  cases hq : subAt T p' with
  | some u => rfl
  | none =>
    exfalso
    have : ∀ (ps : CondPath) (t : DF), subAt t ps = none → subAt t (ps ++ q') = none := by
      intro ps
      induction ps with
      | nil => intro t h; simp [subAt] at h
      | cons a ps ih =>
        obtain ⟨c, b⟩ := a
        intro t h
        cases t <;> simp only [subAt, List.cons_append] at h ⊢
        split
        · rename_i e; rw [if_pos e] at h
          cases b <;> simp at h ⊢ <;> exact ih _ h
        · rfl
    rw [this _ _ hq] at hs
    cases hs

theorem TEnv.At.sibling {A : TEnv} {T : DF} {p : ExPath} {c : Ex} {b : Bool} (h : A.At T (p ++ [(c, b)])) (d : Bool) :
    A.At T (p ++ [(c, d)]) := by
  obtain ⟨r, s, hr, hs⟩ := h
  obtain ⟨p', q', h1, h2, rfl⟩ := TEnv.path_append hr
  simp only [TEnv.path, bind_ok, ok_inj] at h2
  obtain ⟨c', hc, _, rfl, rfl⟩ := h2
  obtain ⟨p'', u, h1', hu⟩ := TEnv.At.prefix ⟨_, _, hr, hs⟩
  rw [h1] at h1'
  cases h1'
  rw [subAt_append hu] at hs
  cases u <;> simp only [subAt, reduceCtorEq] at hs
  rename_i cc t f
  split at hs
  · rename_i e; subst e
    refine ⟨p' ++ [(c', d)], if d then t else f, TEnv.path_append_ok h1 (by simp [TEnv.path, hc, ok_bind]), ?_⟩
    rw [subAt_append hu]
    cases d <;> simp [subAt]
  · cases hs

theorem TEnv.FreshAt.extend {A : TEnv} {T : DF} {p q : ExPath} (h : A.FreshAt T p) : A.FreshAt T (p ++ q) := by
  intro r hr
  obtain ⟨p', q', h1, h2, rfl⟩ := TEnv.path_append hr
  have h := h p' h1
  have : ∀ (ps : CondPath) (t : DF), subAt t (splitAlong t ps).1 = some .none → subAt t (splitAlong t (ps ++ q')).1 = some .none := by
    intro ps
    induction ps with
    | nil =>
      intro t h
      simp only [splitAlong, subAt, Option.some.injEq] at h
      subst h
      cases q' <;> simp [splitAlong, subAt]
    | cons a ps ih =>
      obtain ⟨c, b⟩ := a
      intro t h
      cases t <;> simp only [splitAlong, subAt, List.cons_append, Option.some.injEq, reduceCtorEq] at h ⊢
      rename_i cc t f
      by_cases e : c = cc
      · subst e
        cases b <;> simp [subAt] at h ⊢ <;> exact ih _ h
      · simp [e, subAt] at h
  exact this p' T h

theorem TEnv.FreshAt.add {A : TEnv} {T : DF} {p : ExPath} (h : A.FreshAt T p) : A.AddAt T p :=
  fun p' hp => .inr (h p' hp)

theorem TEnv.At.add {A : TEnv} {T : DF} {p : ExPath} (h : A.At T p) : A.AddAt T p := by
  intro p' hp
  by_cases e : p = []
  · subst e
    simp only [TEnv.path, ok_inj] at hp
    subst hp
    exact .inl ⟨T, by simp [subAt]⟩
  · obtain ⟨qs, q, rfl⟩ : ∃ qs q, p = qs ++ [q] := ⟨p.dropLast, p.getLast e, (List.dropLast_append_getLast e).symm⟩
    obtain ⟨c, b⟩ := q
    obtain ⟨p1, q1, h1, h2, rfl⟩ := TEnv.path_append hp
    simp only [TEnv.path, bind_ok, ok_inj] at h2
    obtain ⟨c', hc, _, rfl, rfl⟩ := h2
    obtain ⟨p2, r, h3, h4⟩ := h.prefix
    rw [h1] at h3; cases h3
    exact .inl ⟨r, by simpa using h4⟩

theorem TEnv.At.addNext {A : TEnv} {T : DF} {p : ExPath} (h : A.At T p) (c : Ex) (b : Bool) : A.AddAt T (p ++ [(c, b)]) := by
  intro p' hp
  obtain ⟨p1, q1, h1, h2, rfl⟩ := TEnv.path_append hp
  simp only [TEnv.path, bind_ok, ok_inj] at h2
  obtain ⟨c', hc, _, rfl, rfl⟩ := h2
  obtain ⟨p2, r, h3, h4⟩ := h
  rw [h1] at h3; cases h3
  exact .inl ⟨r, by simpa using h4⟩

theorem preTree_keeps {T raw T' : DF} {p q : CondPath} {r : DF} (hs : subAt T p = some r)
    (h : preTree T (p ++ q) raw = .ok T') : ∃ r', subAt T' p = some r' := by
  obtain ⟨t, ht, hsub, -⟩ := preTree_spec T (p ++ q) raw
  rw [ht] at h
  cases h
  cases hq : subAt T' p with
  | some u => exact ⟨u, rfl⟩
  | none =>
    exfalso
    have : ∀ (ps : CondPath) (t : DF), subAt t ps = none → subAt t (ps ++ q) = none := by
      intro ps
      induction ps with
      | nil => intro t h; simp [subAt] at h
      | cons a ps ih =>
        obtain ⟨c, b⟩ := a
        intro t h
        cases t <;> simp only [subAt, List.cons_append] at h ⊢
        split
        · rename_i e; rw [if_pos e] at h
          cases b <;> simp at h ⊢ <;> exact ih _ h
        · rfl
    rw [this _ _ hq] at hsub
    cases hsub

/-! ### The other side of a condition -/

theorem preTree_none (ps : CondPath) (raw : DF) : preTree .none ps raw = .ok (makeBranchTree ps raw) := by
  cases ps <;> simp [preTree, diffBranchTree, addTree, appendBranchTree, makeBranchTree, ok_bind]

theorem preTree_branch (c t f : DF) (b : Bool) (ps : CondPath) (raw : DF) :
    preTree (.branch c t f) ((c, b) :: ps) raw =
      (if b then (preTree t ps raw).bind (fun r => .ok (.branch c r f)) else (preTree f ps raw).bind (fun r => .ok (.branch c t r))) := by
  cases b <;> simp only [preTree, diffBranchTree, ne_eq, not_true_eq_false, if_false, Bool.false_eq_true, if_true]
  · cases h : addTree (diffBranchTree f ps).1 (diffBranchTree f ps).2.1 raw <;> simp only [ok_bind, appendBranchTree] <;> rfl
  · cases h : addTree (diffBranchTree t ps).1 (diffBranchTree t ps).2.1 raw <;> simp only [ok_bind, appendBranchTree] <;> rfl

/-- Nothing is assigned where the tree leaves the path. -/
def FreshP (t : DF) (ps : CondPath) : Prop := subAt t (splitAlong t ps).1 = some .none

theorem freshP_branch {c t f : DF} {p : DF} {b : Bool} {ps : CondPath} :
    FreshP (.branch c t f) ((p, b) :: ps) ↔ p = c ∧ FreshP (if b then t else f) ps := by
  simp only [FreshP, splitAlong]
  by_cases h : p = c
  · subst h
    cases b <;> simp [subAt]
  · simp [h, subAt]

theorem freshP_leaf {t : DF} {ps : CondPath} (h : t.isBranch = false) : FreshP t ps ↔ t = .none := by
  cases t <;> cases ps <;> simp_all [FreshP, splitAlong, subAt, DF.isBranch]

theorem freshP_makeBranch (qs : CondPath) (c : DF) (b : Bool) (ps : CondPath) (raw : DF) :
    FreshP (makeBranchTree (qs ++ (c, b) :: ps) raw) (qs ++ [(c, !b)]) := by
  induction qs with
  | nil => cases b <;> simp [makeBranchTree, freshP_branch, FreshP, splitAlong, subAt]
  | cons q qs ih =>
    obtain ⟨d, e⟩ := q
    cases e <;> simp only [List.cons_append, makeBranchTree, freshP_branch, true_and] <;> simpa using ih

/-- An assignment under one side of a condition assigns nothing on the other side. -/
theorem preTree_sib (qs : CondPath) (c : DF) (b : Bool) (ps : CondPath) (raw : DF) : ∀ T T', preTree T (qs ++ (c, b) :: ps) raw = .ok T' →
    FreshP T (qs ++ [(c, !b)]) → FreshP T' (qs ++ [(c, !b)]) := by
  induction qs with
  | nil =>
    intro T T' h hf
    by_cases hb : T.isBranch = false
    · rw [freshP_leaf hb] at hf
      subst hf
      rw [preTree_none] at h
      cases h
      exact freshP_makeBranch [] c b ps raw
    · cases T <;> simp only [DF.isBranch, reduceCtorEq, not_true_eq_false, not_false_eq_true] at hb
      rename_i c' t f
      simp only [List.nil_append, freshP_branch] at hf
      obtain ⟨rfl, hf⟩ := hf
      simp only [List.nil_append] at h ⊢
      rw [preTree_branch] at h
      cases b <;> simp only [Bool.false_eq_true, if_false, if_true] at h
      · obtain ⟨r, -, h⟩ := bind_ok.mp h
        cases h
        rw [freshP_branch]; exact ⟨rfl, by simpa using hf⟩
      · obtain ⟨r, -, h⟩ := bind_ok.mp h
        cases h
        rw [freshP_branch]; exact ⟨rfl, by simpa using hf⟩
  | cons q qs ih =>
    obtain ⟨d, e⟩ := q
    intro T T' h hf
    by_cases hb : T.isBranch = false
    · rw [freshP_leaf hb] at hf
      subst hf
      rw [preTree_none] at h
      cases h
      exact freshP_makeBranch ((d, e) :: qs) c b ps raw
    · cases T <;> simp only [DF.isBranch, reduceCtorEq, not_true_eq_false, not_false_eq_true] at hb
      rename_i c' t f
      simp only [List.cons_append, freshP_branch] at hf
      obtain ⟨rfl, hf⟩ := hf
      simp only [List.cons_append] at h ⊢
      rw [preTree_branch] at h
      cases e <;> simp only [Bool.false_eq_true, if_false, if_true] at h hf
      · obtain ⟨r, hr, h⟩ := bind_ok.mp h
        cases h
        rw [freshP_branch]; exact ⟨rfl, by simpa using ih _ _ hr hf⟩
      · obtain ⟨r, hr, h⟩ := bind_ok.mp h
        cases h
        rw [freshP_branch]; exact ⟨rfl, by simpa using ih _ _ hr hf⟩

/-- What was not assigned on the other side of the conditions of the path still is not. -/
def TEnv.Sib (A : TEnv) (p : ExPath) (T T' : DF) : Prop :=
  ∀ q c b s, p = q ++ (c, b) :: s → A.FreshAt T (q ++ [(c, !b)]) → A.FreshAt T' (q ++ [(c, !b)])

theorem TEnv.Sib.refl {A : TEnv} {p : ExPath} {T : DF} : A.Sib p T T := fun _ _ _ _ _ h => h

theorem TEnv.Sib.trans {A : TEnv} {p : ExPath} {T T' T'' : DF} (h : A.Sib p T T') (g : A.Sib p T' T'') : A.Sib p T T'' :=
  fun q c b s e hf => g q c b s e (h q c b s e hf)

theorem TEnv.Sib.prefix {A : TEnv} {p r : ExPath} {T T' : DF} (h : A.Sib (p ++ r) T T') : A.Sib p T T' :=
  fun q c b s e hf => h q c b (s ++ r) (by rw [e]; simp) hf

theorem TEnv.Sib.put {A : TEnv} {p : ExPath} {T raw T' : DF} {p' : CondPath} (hp : A.path p = .ok p') (h : preTree T p' raw = .ok T') :
    A.Sib p T T' := by
  intro q c b s e hf r hr
  subst e
  obtain ⟨q', s', h1, h2, rfl⟩ := TEnv.path_append hp
  simp only [TEnv.path, bind_ok, ok_inj] at h2
  obtain ⟨c', hc, s'', hs, rfl⟩ := h2
  have hr2 : r = q' ++ [(c', !b)] := by
    have := TEnv.path_append_ok h1 (q := [(c, !b)]) (q' := [(c', !b)]) (by simp only [TEnv.path, hc, ok_bind])
    rw [hr] at this
    exact (Except.ok.inj this)
  subst hr2
  exact preTree_sib q' c' b s'' raw T T' h (hf _ hr)

end Pyv
