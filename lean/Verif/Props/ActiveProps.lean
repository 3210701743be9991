import Verif.Active
import Verif.Props.FsmReset
/-
  C68: the active conditions of a signal.
-/
namespace Pyv

/-! ### Specification -/

/-- A reported condition is true: None (no condition), or a condition that holds. -/
def CondTrue (ρ : Env) (c : DF) : Prop := c = .none ∨ Holds ρ c

/-- The result reports, for the state register `s` in state `v`, a condition that is true. -/
def ReportedActive (ρ : Env) (r : Dict ScopeChain (List (Int × DF))) (s : ScopeChain) (v : Int) : Prop :=
  ∃ l c, r.get? s = some l ∧ (v, c) ∈ l ∧ CondTrue ρ c

/-- The condition lists are readable in both directions and can be satisfied. -/
def ListsReadable (ρ : Env) (name : ScopeChain) (width : Nat) (fd : FuncDict) : Prop :=
  ∀ e ∈ fd, (∀ c ∈ e.1, Readable name width c ρ true ∧ Readable name width c ρ false) ∧
    ∃ ρ' v', StateIs ρ' name width v' ∧ (∀ c ∈ e.1, Readable name width c ρ' true) ∧ AllHold ρ' e.1

/-- A comparison of the state register with a constant, possibly negated. -/
inductive PinsState (name : ScopeChain) : DF → Prop
  | left (o : Op) (x : Int) (w a b) : o.compare = true → PinsState name (.op o [.term name, .ev (.int x) w a b])
  | right (o : Op) (x : Int) (w a b) : o.compare = true → PinsState name (.op o [.ev (.int x) w a b, .term name])
  | not (c : DF) : PinsState name c → PinsState name (.op .ulnot [c])

/-! ### Loops -/

theorem collectM_ok {α β : Type} {f : α → Py (List β)} : ∀ {l : List α} {r : List β}, collectM f l = .ok r →
    (∀ x ∈ l, ∃ a, f x = .ok a) ∧ ∀ y, y ∈ r ↔ ∃ x ∈ l, ∃ a, f x = .ok a ∧ y ∈ a := by
  intro l
  induction l with
  | nil => intro r h; simp [collectM] at h; subst h; simp
  | cons x l ih =>
    intro r h
    simp only [collectM, bind_ok, ok_inj] at h
    obtain ⟨a, ha, b, hb, rfl⟩ := h
    obtain ⟨h1, h2⟩ := ih hb
    refine ⟨?_, ?_⟩
    · intro y hy
      rcases List.mem_cons.mp hy with rfl | hy
      · exact ⟨a, ha⟩
      · exact h1 y hy
    · intro y
      rw [List.mem_append, h2]
      simp only [List.mem_cons, exists_eq_or_imp]
      refine or_congr ?_ Iff.rfl
      constructor
      · intro hy; exact ⟨a, ha, hy⟩
      · rintro ⟨a', h', hy⟩; rw [ha] at h'; simp at h'; subst h'; exact hy

theorem collectM_total {α β : Type} {f : α → Py (List β)} : ∀ {l : List α}, (∀ x ∈ l, ∃ a, f x = .ok a) →
    ∃ r, collectM f l = .ok r := by
  intro l
  induction l with
  | nil => intro _; exact ⟨[], rfl⟩
  | cons x l ih =>
    intro h
    obtain ⟨a, ha⟩ := h x (by simp)
    obtain ⟨b, hb⟩ := ih (fun y hy => h y (by simp [hy]))
    exact ⟨a ++ b, by simp [collectM, ha, hb, ok_bind]⟩

theorem mem_activeState {opt : DF → Py DF} {tc : Option DF} {s : Int} {l : List (Int × DF)}
    (h : activeState opt tc s = .ok l) (y : Int × DF) :
    y ∈ l ↔ ∃ c, opt (tc.getD .none) = .ok c ∧ (∀ w a b, c ≠ .ev (.int 0) w a b) ∧ y = (s, c) := by
  unfold activeState at h
  simp only [bind_ok] at h
  obtain ⟨c, hc, h⟩ := h
  rw [hc]
  split at h
  · simp at h; subst h
    simp only [List.not_mem_nil, ok_inj, false_iff]
    rintro ⟨_, rfl, hne, _⟩
    exact hne _ _ _ rfl
  · rename_i hne
    simp at h; subst h
    simp only [List.mem_singleton, ok_inj]
    constructor
    · rintro rfl; exact ⟨c, rfl, hne, rfl⟩
    · rintro ⟨_, rfl, _, rfl⟩; rfl

/-- What `getActiveConditions_fsm` lists. -/
theorem mem_activeFsm {opt : DF → Py DF} {sig : ScopeChain} {width : Nat} {fd : FuncDict} {l : List (Int × DF)}
    (h : activeFsm opt sig width fd = .ok l) (v : Int) (c : DF) :
    (v, c) ∈ l ↔ ∃ e ∈ fd, ∃ sn, walkCondlist e.1 sig width = .ok (some sn) ∧ ∃ n ∈ nodesOf sn, InRanges v n.ranges ∧
      opt (n.tc.getD .none) = .ok c ∧ ∀ w a b, c ≠ .ev (.int 0) w a b := by
  unfold activeFsm at h
  obtain ⟨h1, h2⟩ := collectM_ok h
  rw [h2]
  simp only [mem_sortOn] at h1 ⊢
  refine exists_congr fun e => and_congr_right fun he => ?_
  obtain ⟨a, ha⟩ := h1 e he
  simp only [ha, ok_inj, exists_eq_left']
  unfold activeEntry at ha
  simp only [bind_ok] at ha
  obtain ⟨r, hr, ha⟩ := ha
  rw [hr]
  obtain ⟨h3, h4⟩ := collectM_ok ha
  rw [h4]
  have hn : ∀ P : SNode → Prop, (∃ x ∈ stateNodes r, P x) ↔ ∃ sn, r = some sn ∧ ∃ n ∈ nodesOf sn, P n := by
    intro P
    cases r with
    | none => simp [stateNodes]
    | some sn => cases sn <;> simp [stateNodes, nodesOf]
  have hn2 : (∃ x ∈ stateNodes r, ∃ a, activeNode opt x = .ok a ∧ (v, c) ∈ a) ↔
      ∃ x ∈ stateNodes r, InRanges v x.ranges ∧ opt (x.tc.getD .none) = .ok c ∧ ∀ w a b, c ≠ .ev (.int 0) w a b := by
    refine exists_congr fun n => and_congr_right fun hnm => ?_
    obtain ⟨b, hb⟩ := h3 n hnm
    simp only [hb, ok_inj, exists_eq_left']
    unfold activeNode at hb
    obtain ⟨h5, h6⟩ := collectM_ok hb
    rw [h6]
    constructor
    · rintro ⟨rp, hrp, a, ha, hy⟩
      obtain ⟨h7, h8⟩ := collectM_ok ha
      obtain ⟨s, hs, b, hb, hy⟩ := (h8 _).mp hy
      obtain ⟨c', hc', hne, e⟩ := (mem_activeState hb _).mp hy
      simp at e
      obtain ⟨rfl, rfl⟩ := e
      exact ⟨⟨rp, hrp, mem_intRange.mp hs⟩, hc', hne⟩
    · rintro ⟨⟨rp, hrp, hv⟩, hc, hne⟩
      obtain ⟨a, ha⟩ := h5 rp hrp
      refine ⟨rp, hrp, a, ha, ?_⟩
      obtain ⟨h7, h8⟩ := collectM_ok ha
      obtain ⟨b, hb⟩ := h7 v (mem_intRange.mpr hv)
      exact (h8 _).mpr ⟨v, mem_intRange.mpr hv, b, hb, (mem_activeState hb _).mpr ⟨c, hc, hne, rfl⟩⟩
  rw [hn2, hn]
  simp only [ok_inj]

/-! ### Nodes that restrict the state -/

def NoAny (sn : SN) : Prop := ∀ n ∈ nodesOf sn, n.isany = false

theorem andStateNode_noany {a b n : SNode} (h : andStateNode a b = .ok (some n)) (hab : a.isany = false ∨ b.isany = false) :
    n.isany = false := by
  unfold andStateNode at h
  have hany : (andRanges a b).1 = false := by
    unfold andRanges
    split
    · rcases hab with h | h <;> simp_all
    · split
      · rfl
      · split
        · rfl
        · split <;> rfl
  generalize andRanges a b = x at h hany
  obtain ⟨isany, ranges⟩ := x
  simp only at h hany
  split at h
  · simp at h
  · simp only [bind_ok, ok_inj, Option.some.injEq] at h
    obtain ⟨tc, htc, rfl⟩ := h
    exact hany

theorem andProduct_noany : ∀ {ps : List (SNode × SNode)} {vs : List SNode}, andProduct ps = .ok vs →
    (∀ p ∈ ps, p.1.isany = false ∨ p.2.isany = false) → ∀ n ∈ vs, n.isany = false := by
  intro ps
  induction ps with
  | nil => intro vs h _; simp [andProduct] at h; subst h; simp
  | cons p ps ih =>
    intro vs h hp
    obtain ⟨l, r⟩ := p
    simp only [andProduct, bind_ok] at h
    obtain ⟨v, hv, ws, hws, h⟩ := h
    have hw := ih hws (fun p hp' => hp p (by simp [hp']))
    cases v with
    | none => simp at h; subst h; exact hw
    | some x =>
      simp at h; subst h
      intro n hn
      rcases List.mem_cons.mp hn with rfl | hn
      · exact andStateNode_noany hv (hp (l, r) (by simp))
      · exact hw n hn

theorem andStateNodeList_noany {l r x : SN} (h : andStateNodeList (some l) (some r) = .ok (some x))
    (hlr : NoAny l ∨ NoAny r) : NoAny x := by
  have pairs : ∀ p ∈ allPairs (nodesOf l) (nodesOf r), p.1.isany = false ∨ p.2.isany = false := by
    intro p hp
    obtain ⟨h1, h2⟩ := mem_allPairs.mp hp
    exact hlr.imp (fun h => h _ h1) (fun h => h _ h2)
  have many : ∀ vs, andProduct (allPairs (nodesOf l) (nodesOf r)) = .ok vs → manyOpt vs = some x → NoAny x := by
    intro vs hv e
    cases vs with
    | nil => simp [manyOpt] at e
    | cons a vs =>
      simp [manyOpt] at e; subst e
      exact andProduct_noany hv pairs
  rcases l with a | ls <;> rcases r with b | rs
  · simp only [andStateNodeList, bind_ok, ok_inj] at h
    obtain ⟨v, hv, e⟩ := h
    cases v with
    | none => simp at e
    | some n =>
      simp at e; subst e
      intro m hm
      simp [nodesOf] at hm; subst hm
      exact andStateNode_noany hv (pairs (a, b) (by simp [allPairs, nodesOf]))
  all_goals
    simp only [andStateNodeList, bind_ok, ok_inj] at h
    obtain ⟨vs, hv, e⟩ := h
    exact many vs hv e

theorem notFold_noany {ρ : Env} {width : Nat} {v : Int} : ∀ (ns : List SN) (r x : SN), SNOK ρ width r → InSN ρ v r →
    (∀ n ∈ ns, SNOK ρ width n ∧ InSN ρ v n) → (NoAny r ∨ ∃ n ∈ ns, NoAny n) → notFold (some r) ns = .ok (some x) →
    NoAny x := by
  intro ns
  induction ns with
  | nil =>
    intro r x _ _ _ h e
    simp [notFold] at e; subst e
    simpa using h
  | cons n ns ih =>
    intro r x hr hin hns h e
    simp only [notFold, bind_ok] at e
    obtain ⟨y, hy, e⟩ := e
    obtain ⟨hn, hnin⟩ := hns n (by simp)
    obtain ⟨y', h1, h2, h3⟩ := andStateNodeList_spec hr.wf hn.wf
    rw [h1] at hy; simp only [ok_inj] at hy; subst hy
    obtain ⟨h4, h5⟩ := h3 ρ v hr hn
    obtain ⟨y, rfl, hyin⟩ := h5.mpr ⟨hin, hnin⟩
    refine ih y x (h4 y rfl) hyin (fun n hn => hns n (by simp [hn])) ?_ e
    rcases h with h | ⟨m, hm, h⟩
    · exact .inl (andStateNodeList_noany h1 (.inl h))
    · rcases List.mem_cons.mp hm with rfl | hm
      · exact .inl (andStateNodeList_noany h1 (.inr h))
      · exact .inr ⟨m, hm, h⟩

theorem notStateNode_noany {n : SNode} {sn : SN} (h : notStateNode n = .ok sn) (hn : n.isany = false) : NoAny sn := by
  unfold notStateNode at h
  rw [if_neg (by simp [hn])] at h
  simp only at h
  split at h
  · simp at h; subst h; simp [NoAny, nodesOf]
  · simp only [bind_ok, ok_inj] at h
    obtain ⟨tc, _, rfl⟩ := h
    simp [NoAny, nodesOf]

theorem notFold_noany_all : ∀ (ns : List SN) (r : Option SN) (x : SN), (∀ y, r = some y → NoAny y) → (∀ n ∈ ns, NoAny n) →
    notFold r ns = .ok (some x) → NoAny x := by
  intro ns
  induction ns with
  | nil => intro r x hr _ e; cases r <;> simp [notFold] at e; subst e; exact hr _ rfl
  | cons n ns ih =>
    intro r x hr hns e
    cases r with
    | none =>
      simp only [notFold] at e
      exact ih _ _ (by intro y e; simp at e; subst e; exact hns _ (by simp)) (fun n hn => hns n (by simp [hn])) e
    | some r =>
      simp only [notFold, bind_ok] at e
      obtain ⟨y, hy, e⟩ := e
      refine ih _ _ ?_ (fun n hn => hns n (by simp [hn])) e
      rintro z rfl
      exact andStateNodeList_noany hy (.inl (hr _ rfl))

theorem mapM_mem_py {α β : Type} {f : α → Py β} : ∀ {l : List α} {r : List β}, l.mapM f = .ok r →
    ∀ y ∈ r, ∃ x ∈ l, f x = .ok y := by
  intro l
  induction l with
  | nil => intro r h; simp [pure, Except.pure] at h; subst h; simp
  | cons x l ih =>
    intro r h
    rw [List.mapM_cons] at h
    simp only [bind_ok, pure, Except.pure, ok_inj] at h
    obtain ⟨a, ha, b, hb, rfl⟩ := h
    intro y hy
    rcases List.mem_cons.mp hy with rfl | hy
    · exact ⟨x, by simp, ha⟩
    · obtain ⟨z, hz, e⟩ := ih hb y hy
      exact ⟨z, by simp [hz], e⟩

theorem notStateNodeList_noany {sn x : SN} (h : notStateNodeList (some sn) = .ok (some x)) (hn : NoAny sn) : NoAny x := by
  cases sn with
  | one n =>
    simp only [notStateNodeList, bind_ok, ok_inj, Option.some.injEq] at h
    obtain ⟨y, hy, rfl⟩ := h
    exact notStateNode_noany hy (hn n (by simp [nodesOf]))
  | many ns =>
    simp only [notStateNodeList, bind_ok] at h
    obtain ⟨xs, hxs, h⟩ := h
    refine notFold_noany_all xs none x (by simp) ?_ h
    intro y hy
    obtain ⟨n, hnm, e⟩ := mapM_mem_py hxs y hy
    exact notStateNode_noany e (hn n (by simpa [nodesOf] using hnm))

theorem createStateNode_noany {i : Inferred} {width : Nat} {x : SN} (h : createStateNode i width = .ok (some x)) : NoAny x := by
  unfold createStateNode at h
  simp only at h
  split at h
  · exact notStateNodeList_noany h (by simp [NoAny, nodesOf])
  · simp at h; subst h; simp [NoAny, nodesOf]

theorem walkCompare_noany {o : Op} {l r : DF} {name : ScopeChain} {width : Nat} {x : SN}
    (h : walkCompare o l r name width = .ok (some x)) (hlr : l = .term name ∨ r = .term name) : NoAny x := by
  unfold walkCompare at h
  split at h
  · simp only [bind_ok] at h
    obtain ⟨i, _, h⟩ := h
    exact createStateNode_noany h
  · rename_i hl
    rw [if_pos (hlr.resolve_left hl)] at h
    simp only [bind_ok] at h
    obtain ⟨i, _, h⟩ := h
    exact createStateNode_noany h

theorem walkCond_noany {name : ScopeChain} {width : Nat} {c : DF} (hp : PinsState name c) :
    ∀ x, walkCond name width c = .ok (some x) → NoAny x := by
  have cmp : ∀ (o : Op) (l r : DF) (x : SN), o.compare = true → (l = .term name ∨ r = .term name) →
      walkCond name width (.op o [l, r]) = .ok (some x) → NoAny x := by
    intro o l r x ho hlr h
    have h1 : o.nonCondition = false := by simp [Op.nonCondition, ho]
    have h2 : ¬ (o = .or ∨ o = .lor) := by rintro (rfl | rfl) <;> simp [Op.compare] at ho
    have h3 : ¬ (o = .and ∨ o = .land) := by rintro (rfl | rfl) <;> simp [Op.compare] at ho
    simp only [walkCond, h1, if_neg h2, if_neg h3, Bool.false_eq_true, if_false] at h
    exact walkCompare_noany h hlr
  induction hp with
  | left o x w a b ho => intro sn h; exact cmp o _ _ sn ho (.inl rfl) h
  | right o x w a b ho => intro sn h; exact cmp o _ _ sn ho (.inr rfl) h
  | not c _ ih =>
    intro sn h
    simp only [walkCond, true_or, if_true, bind_ok] at h
    obtain ⟨r, hr, h⟩ := h
    cases r with
    | none => simp [notStateNodeList] at h
    | some y => exact notStateNodeList_noany h (ih y hr)

theorem walkCondlist_noany {ρ : Env} {name : ScopeChain} {width : Nat} {v : Int} {conds : List DF}
    (hs : StateIs ρ name width v) (hr : ∀ c ∈ conds, Readable name width c ρ true) (hh : AllHold ρ conds)
    (hp : ∃ c ∈ conds, PinsState name c) {sn : SN} (h : walkCondlist conds name width = .ok (some sn)) : NoAny sn := by
  unfold walkCondlist at h
  split at h
  · rename_i hl
    have : conds = [] := by simpa using hl
    subst this
    simp at hp
  · obtain ⟨xs, f, e⟩ := walkCondLoop_eq (Q := fun c x => (SNOK ρ width x ∧ InSN ρ v x) ∧ (PinsState name c → NoAny x))
      conds none _ h (by
      intro c hc r hcr
      have hR := walkCond_reads name width c ρ v true r hs (hr c hc) hcr
      obtain ⟨sn, rfl, hin⟩ := hR.2.2.1 rfl (hh c hc)
      exact ⟨sn, rfl, ⟨hR.2.1 sn rfl, hin⟩, fun hp => walkCond_noany hp sn hcr⟩)
    have hx : ∀ x ∈ xs, SNOK ρ width x ∧ InSN ρ v x := by
      intro x hx
      obtain ⟨c, _, _, h, _⟩ := forall₂_mem_right f x hx
      exact h
    have hpx : ∃ x ∈ xs, NoAny x := by
      obtain ⟨c, hc, hpc⟩ := hp
      obtain ⟨x, hxm, _, _, hq⟩ := forall₂_mem_left f c hc
      exact ⟨x, hxm, hq hpc⟩
    cases xs with
    | nil => simp at hpx
    | cons x xs =>
      simp only [notFold] at e
      refine notFold_noany xs x sn (hx x (by simp)).1 (hx x (by simp)).2 (fun n hn => hx n (by simp [hn])) ?_ e
      obtain ⟨y, hy, h⟩ := hpx
      rcases List.mem_cons.mp hy with rfl | hy
      · exact .inl h
      · exact .inr ⟨y, hy, h⟩

/-! ### C68 -/

/-- **C68** (soundness) If, for a state `v` of the state register, a reported condition is true, then all conditions of
some entry hold. -/
theorem C68_sound_partial (ρ : Env) (opt : DF → Py DF) (sig : ScopeChain) (width : Nat) (fd : FuncDict) (v : Int)
    (hopt : ∀ c r, Defined ρ c → opt c = .ok r → Defined ρ r ∧ (Holds ρ r ↔ Holds ρ c))
    (hs : StateIs ρ sig width v) (hr : ListsReadable ρ sig width fd) (l : List (Int × DF))
    (h : activeFsm opt sig width fd = .ok l) (c : DF) (hc : (v, c) ∈ l) (ht : CondTrue ρ c)
    (hnone : ∀ d, Defined ρ d → opt d ≠ .ok .none) : ∃ e ∈ fd, AllHold ρ e.1 := by
  obtain ⟨e, he, sn, hw, n, hn, hv, ho, _⟩ := (mem_activeFsm h v c).mp hc
  obtain ⟨h1, h2⟩ := hr e he
  refine ⟨e, he, C23_states_exact_partial ρ sig width v e.1 hs (fun c hc => (h1 c hc).2) h2 sn hw
    (inSN_nodes.mpr ⟨n, hn, .inr hv, ?_⟩)⟩
  intro t htc
  have hd := walkCondlist_defined hs (fun c hc => (h1 c hc).2) hw n hn t htc
  rw [htc] at ho
  simp only [Option.getD_some] at ho
  rcases ht with rfl | ht
  · exact absurd ho (hnone t hd)
  · exact (hopt t c hd ho).2.mp ht

/-- **C68** (completeness) If all conditions of an entry that restricts the state register hold in state `v`, then a
true condition is reported for `v`. -/
theorem C68_complete_partial (ρ : Env) (opt : DF → Py DF) (sig : ScopeChain) (width : Nat) (fd : FuncDict) (v : Int)
    (hopt : ∀ c r, Defined ρ c → opt c = .ok r → Defined ρ r ∧ (Holds ρ r ↔ Holds ρ c))
    (hnone : opt .none = .ok .none)
    (hs : StateIs ρ sig width v) (hr : ListsReadable ρ sig width fd) (l : List (Int × DF))
    (h : activeFsm opt sig width fd = .ok l) (e : List DF × DF) (he : e ∈ fd) (hh : AllHold ρ e.1)
    (hp : ∃ c ∈ e.1, PinsState sig c) : ∃ c, (v, c) ∈ l ∧ CondTrue ρ c := by
  obtain ⟨h1, h2⟩ := hr e he
  obtain ⟨q1, q2⟩ := collectM_ok h
  obtain ⟨al, hal⟩ := q1 e (mem_sortOn.mpr he)
  have hal' := hal
  unfold activeEntry at hal
  simp only [bind_ok] at hal
  obtain ⟨res, hres, hal⟩ := hal
  obtain ⟨sn, rfl, hin⟩ := C23_states_overapproximated_partial ρ sig width v e.1 hs (fun c hc => (h1 c hc).1) hh res hres
  obtain ⟨n, hn, hinn⟩ := inSN_nodes.mp hin
  have hna := walkCondlist_noany hs (fun c hc => (h1 c hc).1) hh hp hres n hn
  have hv : InRanges v n.ranges := hinn.1.resolve_left (by simp [hna])
  -- the condition of this node is simplified to something
  have hnm : n ∈ stateNodes (some sn) := by cases sn <;> simpa [stateNodes, nodesOf] using hn
  obtain ⟨b, hb⟩ := (collectM_ok hal).1 n hnm
  obtain ⟨rp, hrp, hvr⟩ := hv
  obtain ⟨b2, hb2⟩ := (collectM_ok hb).1 rp hrp
  obtain ⟨b3, hb3⟩ := (collectM_ok hb2).1 v (mem_intRange.mpr hvr)
  unfold activeState at hb3
  simp only [bind_ok] at hb3
  obtain ⟨c, hc, _⟩ := hb3
  have ht : CondTrue ρ c := by
    cases htc : n.tc with
    | none =>
      rw [htc] at hc
      simp only [Option.getD_none] at hc
      rw [hnone] at hc; simp at hc; exact .inl hc.symm
    | some t =>
      rw [htc] at hc
      simp only [Option.getD_some] at hc
      have hd := walkCondlist_defined hs (fun c hc => (h1 c hc).2) hres n hn t htc
      exact .inr ((hopt t c hd hc).2.mpr (hinn.2 t htc))
  refine ⟨c, (mem_activeFsm h v c).mpr ⟨e, he, sn, hres, n, hn, ⟨rp, hrp, hvr⟩, hc, ?_⟩, ht⟩
  rintro w a b rfl
  rcases ht with ht | ⟨x, hx, hx0⟩
  · simp at ht
  · simp [sem] at hx; subst hx; simp at hx0

theorem activeLoop_get {opt : DF → Py DF} {width : ScopeChain → Py Nat} {fd : FuncDict} :
    ∀ (ss : List ScopeChain) (d r : Dict ScopeChain (List (Int × DF))), activeLoop opt width fd ss d = .ok r →
    (∀ s l, r.get? s = some l → d.get? s = some l ∨ ∃ w, width s = .ok w ∧ activeFsm opt s w fd = .ok l) ∧
    (∀ s l, d.get? s = some l → ∃ l', r.get? s = some l') ∧
    (∀ s ∈ ss, ∃ w l, width s = .ok w ∧ activeFsm opt s w fd = .ok l ∧ (l ≠ [] → ∃ l', r.get? s = some l')) := by
  intro ss
  induction ss with
  | nil =>
    intro d r h
    simp [activeLoop] at h; subst h
    exact ⟨fun s l h => .inl h, fun s l h => ⟨l, h⟩, by simp⟩
  | cons s ss ih =>
    intro d r h
    simp only [activeLoop, bind_ok] at h
    obtain ⟨w, hw, l, hl, h⟩ := h
    obtain ⟨a, b, c⟩ := ih _ _ h
    refine ⟨?_, ?_, ?_⟩
    · intro s' l' h'
      rcases a s' l' h' with h1 | h1
      · split at h1
        · rw [Dict.get?_set] at h1
          split at h1
          · rename_i hlen e
            subst e
            simp at h1; subst h1
            exact .inr ⟨w, hw, hl⟩
          · exact .inl h1
        · exact .inl h1
      · exact .inr h1
    · intro s' l' h'
      have : ∃ l2, (if l.length > 0 then d.set s l else d).get? s' = some l2 := by
        split
        · rw [Dict.get?_set]
          split
          · exact ⟨l, rfl⟩
          · exact ⟨l', h'⟩
        · exact ⟨l', h'⟩
      obtain ⟨l2, h2⟩ := this
      exact b s' l2 h2
    · intro s' hs'
      rcases List.mem_cons.mp hs' with rfl | hs'
      · refine ⟨w, l, hw, hl, ?_⟩
        intro hne
        have hlen : l.length > 0 := List.length_pos_iff.mpr hne
        rw [if_pos hlen] at b
        exact b s' l (by simp [Dict.get?_set])
      · exact c s' hs'

/-- The steps of `getActiveConditions` that succeed on a term with a definition. -/
theorem getActive_steps {isReset : DF → Bool} {opt : DF → Py DF} {width : ScopeChain → Py Nat} {fsms : List ScopeChain}
    {name : ScopeChain} {tree : DF} {cond : ScopeChain → DF → Py Bool} {r : Dict ScopeChain (List (Int × DF))}
    (h : getActive isReset opt width fsms name true tree cond = .ok r) :
    ∃ fd gd, split tree = .ok fd ∧ filterFuncs fd name cond = .ok gd ∧
      ¬ ((removeResetCondition isReset gd).length = 1 ∧ ((removeResetCondition isReset gd).map (·.1)).head? = some []) ∧
      (∀ s l, r.get? s = some l → ∃ w, width s = .ok w ∧ activeFsm opt s w (removeResetCondition isReset gd) = .ok l) ∧
      ∀ s ∈ fsms, ∃ w l, width s = .ok w ∧ activeFsm opt s w (removeResetCondition isReset gd) = .ok l ∧
        (l ≠ [] → ∃ l', r.get? s = some l') := by
  unfold getActive at h
  simp only [Bool.true_eq_false, if_false, bind_ok] at h
  obtain ⟨fd, hfd, gd, hgd, h⟩ := h
  refine ⟨fd, gd, hfd, hgd, ?_⟩
  split at h
  · simp at h
  rename_i hne
  refine ⟨hne, ?_⟩
  simp only [bind_ok] at h
  obtain ⟨d, hd, h⟩ := h
  obtain ⟨a, b, c⟩ := activeLoop_get _ _ _ hd
  split at h
  · simp only [bind_ok, ok_inj] at h
    obtain ⟨w, hw, l, hl, rfl⟩ := h
    refine ⟨?_, ?_⟩
    · intro s l' h'
      split at h'
      · rw [Dict.get?_set] at h'
        split at h'
        · rename_i e
          subst e; simp at h'; subst h'
          exact ⟨w, hw, hl⟩
        · exact (a s l' h').resolve_left (by simp [Dict.get?_nil])
      · exact (a s l' h').resolve_left (by simp [Dict.get?_nil])
    · intro s hs
      obtain ⟨w', l', h1, h2, h3⟩ := c s hs
      refine ⟨w', l', h1, h2, fun hne => ?_⟩
      obtain ⟨l2, h4⟩ := h3 hne
      split
      · rw [Dict.get?_set]
        split
        · exact ⟨l, rfl⟩
        · exact ⟨l2, h4⟩
      · exact ⟨l2, h4⟩
  · simp only [ok_inj] at h; subst h
    exact ⟨fun s l h => (a s l h).resolve_left (by simp [Dict.get?_nil]), c⟩

/-- What the loop over the state machines reports. -/
theorem activeLoop_keys {opt : DF → Py DF} {width : ScopeChain → Py Nat} {fd : FuncDict} :
    ∀ (ss : List ScopeChain) (d d' : Dict ScopeChain (List (Int × DF))), activeLoop opt width fd ss d = .ok d' →
      (∀ e ∈ d', e ∈ d ∨ (e.1 ∈ ss ∧ e.2 ≠ [])) := by
  intro ss
  induction ss with
  | nil => intro d d' h e he; simp only [activeLoop, ok_inj] at h; subst h; exact .inl he
  | cons s ss ih =>
    intro d d' h e he
    simp only [activeLoop, bind_ok] at h
    obtain ⟨w, hw, r, hr, h⟩ := h
    rcases ih _ _ h e he with h1 | ⟨h1, h2⟩
    · split at h1
      · rename_i hlen
        have : e ∈ d ∨ e = (s, r) := by
          revert h1; generalize d = d0
          induction d0 with
          | nil => intro h1; simp only [Dict.set, List.mem_singleton] at h1; exact .inr h1
          | cons q d0 ihd =>
            intro h1
            simp only [Dict.set] at h1
            split at h1
            · rcases List.mem_cons.mp h1 with h1 | h1
              · exact .inr h1
              · exact .inl (by simp [h1])
            · rcases List.mem_cons.mp h1 with h1 | h1
              · exact .inl (by simp [h1])
              · rcases ihd h1 with h1 | h1
                · exact .inl (by simp [h1])
                · exact .inr h1
        rcases this with h1 | rfl
        · exact .inl h1
        · exact .inr ⟨by simp, List.length_pos_iff.mp hlen⟩
      · exact .inl h1
    · exact .inr ⟨by simp [h1], h2⟩

/-- **C68** What is reported: state machines, each with an active state; or the term itself alone, with an active state;
nothing is reported only if the term itself, taken as a state machine, has no active state. -/
theorem C68_reported (isReset : DF → Bool) (opt : DF → Py DF) (width : ScopeChain → Py Nat) (fsms : List ScopeChain)
    (name : ScopeChain) (tree : DF) (cond : ScopeChain → DF → Py Bool) (r : Dict ScopeChain (List (Int × DF)))
    (h : getActive isReset opt width fsms name true tree cond = .ok r) :
    (r ≠ [] ∧ (∀ e ∈ r, e.1 ∈ fsms ∧ e.2 ≠ [])) ∨ (∃ l, l ≠ [] ∧ r = [(name, l)]) ∨
    (r = [] ∧ ∃ fd gd w, split tree = .ok fd ∧ filterFuncs fd name cond = .ok gd ∧ width name = .ok w ∧
      activeFsm opt name w (removeResetCondition isReset gd) = .ok []) := by
  unfold getActive at h
  simp only [Bool.true_eq_false, if_false, bind_ok] at h
  obtain ⟨fd, hfd, gd, hgd, h⟩ := h
  split at h
  · simp at h
  simp only [bind_ok] at h
  obtain ⟨d, hd, h⟩ := h
  have hk : ∀ e ∈ d, e.1 ∈ fsms ∧ e.2 ≠ [] := by
    intro e he
    exact (activeLoop_keys _ _ _ hd e he).resolve_left (by simp)
  have h0 : (d.map (fun p => p.2.length)).sum = 0 ↔ d = [] := by
    constructor
    · intro hs
      cases d with
      | nil => rfl
      | cons e d =>
        have := (hk e (by simp)).2
        have := List.length_pos_iff.mpr this
        simp only [List.map_cons, List.sum_cons] at hs
        omega
    · rintro rfl; rfl
  split at h
  · rename_i hs
    rw [h0] at hs; subst hs
    simp only [bind_ok, ok_inj] at h
    obtain ⟨w, hw, l, hl, rfl⟩ := h
    split
    · rename_i hlen
      exact .inr (.inl ⟨l, List.length_pos_iff.mp hlen, rfl⟩)
    · rename_i hlen
      have : l = [] := List.length_eq_zero_iff.mp (by omega)
      subst this
      exact .inr (.inr ⟨rfl, fd, gd, w, hfd, hgd, hw, hl⟩)
  · rename_i hs
    rw [h0] at hs
    simp only [ok_inj] at h; subst h
    exact .inl ⟨hs, hk⟩

/-- **C68** For a signal whose tree is a conditional, out of reset: a condition reported for a state register in its
current state is true only when the tree selects a function that satisfies the filter; and when it does, every state
register that all remaining condition lists restrict has a true condition reported. -/
theorem C68_active_partial (isReset : DF → Bool) (opt : DF → Py DF) (width : ScopeChain → Py Nat)
    (fsms : List ScopeChain) (name : ScopeChain) (c t f : DF) (cond : ScopeChain → DF → Py Bool)
    (r : Dict ScopeChain (List (Int × DF))) (fd gd : FuncDict) (ρ : Env) (s : ScopeChain) (w : Nat) (v : Int)
    (hopt : ∀ c r, Defined ρ c → opt c = .ok r → Defined ρ r ∧ (Holds ρ r ↔ Holds ρ c))
    (hnone : opt .none = .ok .none) (hh : NoHollow (.branch c t f)) (hf : split (.branch c t f) = .ok fd)
    (hg : filterFuncs fd name cond = .ok gd) (hout : OutOfReset isReset ρ gd)
    (hw : width s = .ok w) (hs : StateIs ρ s w v) (hr : ListsReadable ρ s w (removeResetCondition isReset gd))
    (h : getActive isReset opt width fsms name true (.branch c t f) cond = .ok r) :
    (ReportedActive ρ r s v → ∃ g, selectLeaf ρ (.branch c t f) = some g ∧ cond name g = .ok true) ∧
    (s ∈ fsms → (∀ e ∈ removeResetCondition isReset gd, ∃ c ∈ e.1, PinsState s c) →
      (∃ g, selectLeaf ρ (.branch c t f) = some g ∧ cond name g = .ok true) → ReportedActive ρ r s v) := by
  obtain ⟨fd', gd', h1, h2, hnot, hkeys, hall⟩ := getActive_steps h
  rw [hf] at h1; simp only [ok_inj] at h1; subst h1
  rw [hg] at h2; simp only [ok_inj] at h2; subst h2
  obtain ⟨_, _, _, _, _, _, _, hnd, _⟩ := split_branch hf
  have hmem := C19_filter_exact fd gd name cond hnd hg
  have hex : ∀ p q, p ∈ gd → q ∈ gd → AllHold ρ p.1 → AllHold ρ q.1 → p = q := fun p q hp hq =>
    C18_split_exclusive ρ _ fd hf p q ((hmem p).mp hp).1 ((hmem q).mp hq).1
  have hnn : ∀ d, Defined ρ d → opt d ≠ .ok .none := by
    intro d hd e
    obtain ⟨x, hx⟩ := (hopt d .none hd e).1
    simp [sem] at hx
  -- the lists that hold select the same functions before and after removing the reset conditions
  have hsem : gd ≠ [] → ∀ g, (∃ k, (k, g) ∈ removeResetCondition isReset gd ∧ AllHold ρ k) ↔
      ∃ cs, (cs, g) ∈ gd ∧ AllHold ρ cs := by
    intro hne
    refine C46_semantics isReset ρ gd hex hout ?_
    by_contra hno
    have hall : ∀ p ∈ gd, p.1.filter (fun c => !isReset c) = [] := by
      intro p hp
      rw [filter_reset_nil]
      intro c hc
      cases hcr : isReset c with
      | true => rfl
      | false => exact absurd ⟨p, hp, c, hc, hcr⟩ hno
    -- then the unconditional entry is the only one
    have hempty : ∀ q ∈ removeResetCondition isReset gd, q.1 = [] := by
      intro q hq
      by_contra hk
      have hgq := Dict.get?_of_mem (removeReset_nodup isReset gd) hq
      rw [C46_reset_removal isReset gd q.1 hk] at hgq
      cases hl : (gd.filter (fun p => decide (p.1.filter (fun c => !isReset c) = q.1))).getLast? with
      | none => simp [hl] at hgq
      | some e =>
        have hm := List.mem_of_getLast? hl
        simp only [List.mem_filter, decide_eq_true_eq] at hm
        exact hk (by rw [← hm.2]; exact hall e hm.1)
    have hsome : ((removeResetCondition isReset gd).get? []).isSome = true := by
      rw [C46_unconditional_entry, if_pos hall]
      cases gd with
      | nil => exact absurd rfl hne
      | cons a gd => simp
    have hn2 := removeReset_nodup isReset gd
    apply hnot
    match hR : removeResetCondition isReset gd, hsome, hempty, hn2 with
    | [], hs, _, _ => simp [Dict.get?_nil] at hs
    | [p], _, he, _ => exact ⟨rfl, by simp [he p (by simp)]⟩
    | p :: q :: l, _, he, hn2 =>
      exfalso
      have e1 := he p (by simp)
      have e2 := he q (by simp)
      simp [Dict.Nodup, e1, e2] at hn2
  have hsel : ∀ g, (∃ cs, (cs, g) ∈ gd ∧ AllHold ρ cs) ↔
      selectLeaf ρ (.branch c t f) = some g ∧ cond name g = .ok true := C19_filtered_split ρ c t f fd gd name cond hh hf hg
  refine ⟨?_, ?_⟩
  · rintro ⟨l, cn, hl, hc, ht⟩
    obtain ⟨w', hw', hl'⟩ := hkeys s l hl
    rw [hw] at hw'; simp only [ok_inj] at hw'; subst hw'
    obtain ⟨e, he, hhold⟩ := C68_sound_partial ρ opt s w _ v hopt hs hr l hl' cn hc ht hnn
    have hne : gd ≠ [] := by
      rintro rfl
      simp [removeResetCondition, Dict.has] at he
    obtain ⟨cs, hcs⟩ := (hsem hne e.2).mp ⟨e.1, he, hhold⟩
    exact ⟨e.2, (hsel e.2).mp ⟨cs, hcs⟩⟩
  · rintro hsm hpin ⟨g, hgsel⟩
    obtain ⟨cs, hcs, hhold⟩ := (hsel g).mpr hgsel
    have hne : gd ≠ [] := by rintro rfl; simp at hcs
    obtain ⟨k, hk, hkh⟩ := (hsem hne g).mpr ⟨cs, hcs, hhold⟩
    obtain ⟨w', l, hw', hl, hr'⟩ := hall s hsm
    rw [hw] at hw'; simp only [ok_inj] at hw'; subst hw'
    obtain ⟨cn, hcn, ht⟩ := C68_complete_partial ρ opt s w _ v hopt hnone hs hr l hl (k, g) hk hkh (hpin _ hk)
    obtain ⟨l', hl'⟩ := hr' (by rintro rfl; simp at hcn)
    obtain ⟨w2, hw2, hl2⟩ := hkeys s l' hl'
    rw [hw] at hw2; simp only [ok_inj] at hw2; subst hw2
    rw [hl] at hl2; simp only [ok_inj] at hl2; subst hl2
    exact ⟨l, cn, hl', hcn, ht⟩

/-- **C68** A term without a definition has no active conditions. -/
theorem C68_unbound (isReset : DF → Bool) (opt : DF → Py DF) (width : ScopeChain → Py Nat) (fsms : List ScopeChain)
    (name : ScopeChain) (tree : DF) (cond : ScopeChain → DF → Py Bool) :
    getActive isReset opt width fsms name false tree cond = .ok [] := rfl

/-- **C68** (a defect) When every condition list that passes the filter consists of reset conditions only, and there is
one, `getActiveConditions` raises: the result "in any state" documented by the code is never returned. -/
theorem C68_unconditional_raises (isReset : DF → Bool) (opt : DF → Py DF) (width : ScopeChain → Py Nat)
    (fsms : List ScopeChain) (name : ScopeChain) (tree : DF) (cond : ScopeChain → DF → Py Bool) (fd gd : FuncDict)
    (hf : split tree = .ok fd) (hg : filterFuncs fd name cond = .ok gd) (hne : gd ≠ [])
    (hall : ∀ e ∈ gd, ∀ c ∈ e.1, isReset c = true) :
    getActive isReset opt width fsms name true tree cond = .error .type := by
  have hall' : ∀ p ∈ gd, p.1.filter (fun c => !isReset c) = [] := fun p hp => filter_reset_nil.mpr (hall p hp)
  have hempty : ∀ q ∈ removeResetCondition isReset gd, q.1 = [] := by
    intro q hq
    by_contra hk
    have hgq := Dict.get?_of_mem (removeReset_nodup isReset gd) hq
    rw [C46_reset_removal isReset gd q.1 hk] at hgq
    cases hl : (gd.filter (fun p => decide (p.1.filter (fun c => !isReset c) = q.1))).getLast? with
    | none => simp [hl] at hgq
    | some e =>
      have hm := List.mem_of_getLast? hl
      simp only [List.mem_filter, decide_eq_true_eq] at hm
      exact hk (by rw [← hm.2]; exact hall' e hm.1)
  have hsome : ((removeResetCondition isReset gd).get? []).isSome = true := by
    rw [C46_unconditional_entry, if_pos hall']
    cases gd with
    | nil => exact absurd rfl hne
    | cons a gd => simp
  have hn2 := removeReset_nodup isReset gd
  have h1 : (removeResetCondition isReset gd).length = 1 ∧ ((removeResetCondition isReset gd).map (·.1)).head? = some [] := by
    match hR : removeResetCondition isReset gd, hsome, hempty, hn2 with
    | [], hs, _, _ => simp [Dict.get?_nil] at hs
    | [p], _, he, _ => exact ⟨rfl, by simp [he p (by simp)]⟩
    | p :: q :: l, _, he, hn2 =>
      exfalso
      have e1 := he p (by simp)
      have e2 := he q (by simp)
      simp [Dict.Nodup, e1, e2] at hn2
  unfold getActive
  simp only [Bool.true_eq_false, if_false, hf, hg, ok_bind, if_pos h1]

/-- **C68** The list of active conditions of a state register is always obtained when the conditions can be read. -/
theorem C68_fsm_total (opt : DF → Py DF) (hopt : ∀ c, ∃ r, opt c = .ok r) (sig : ScopeChain) (width : Nat) (fd : FuncDict)
    (hw : ∀ e ∈ fd, ∀ c ∈ e.1, Walkable sig c) : ∃ l, activeFsm opt sig width fd = .ok l := by
  refine collectM_total ?_
  intro e he
  obtain ⟨r, hr⟩ := C23_walk_total sig width e.1 (hw e (mem_sortOn.mp he))
  unfold activeEntry
  rw [hr]
  refine collectM_total ?_
  intro n _
  refine collectM_total ?_
  intro rp _
  refine collectM_total ?_
  intro st _
  obtain ⟨c, hc⟩ := hopt (n.tc.getD .none)
  unfold activeState
  rw [hc, ok_bind]
  split
  · exact ⟨_, rfl⟩
  · exact ⟨_, rfl⟩

/-- Non-vacuity of C68: the signal with the tree `rstn ? (s == 1 ? (d ? 2 : 0) : 3) : 0`, the values greater than 0,
and the state register `s`, out of reset. -/
def c68gd : FuncDict := [([c48rstn, c48c, .term c23d], .evi 2 (some 32)), ([c48rstn, .op .ulnot [c48c]], .evi 3 (some 32))]
def c68k : FuncDict := [([c48c, .term c23d], .evi 2 (some 32)), ([.op .ulnot [c48c]], .evi 3 (some 32))]
def c68y : ScopeChain := [⟨['y'], .signal, none⟩]
example : filterFuncs c48full c68y (activeConstant .gt 0) = .ok c68gd ∧ removeResetCondition c48reset c68gd = c68k := by
  decide +kernel
example : OutOfReset c48reset (c23env 1 1) c68gd :=
  ⟨fun e he => c48_out.1 e (by simp only [c68gd, List.mem_cons, List.not_mem_nil, or_false] at he; rcases he with rfl | rfl <;> simp [c48full]),
   fun e he => c48_out.2 e (by simp only [c68gd, List.mem_cons, List.not_mem_nil, or_false] at he; rcases he with rfl | rfl <;> simp [c48full])⟩
example : ListsReadable (c23env 1 1) c23s 2 c68k := by
  intro e he
  simp only [c68k, List.mem_cons, List.not_mem_nil, or_false] at he
  rcases he with rfl | rfl
  · exact c48_readable _ (by simp [c48fd]) 2 (some 32) _ _ rfl
  · exact c48_readable _ (by simp [c48fd]) 3 (some 32) _ _ rfl
example : ∀ e ∈ c68k, ∃ c ∈ e.1, PinsState c23s c := by
  intro e he
  simp only [c68k, List.mem_cons, List.not_mem_nil, or_false] at he
  rcases he with rfl | rfl
  · exact ⟨c48c, by simp, .left .eq 1 (some 32) _ _ rfl⟩
  · exact ⟨.op .ulnot [c48c], by simp, .not _ (.left .eq 1 (some 32) _ _ rfl)⟩
example : getActive c48reset .ok (fun _ => .ok 2) [c23s] c68y true (.branch c48rstn c48t (.evi 0 (some 32)))
    (activeConstant .gt 0) = .ok [(c23s, [(0, .none), (2, .none), (3, .none), (1, .op .greaterThan [.term c23d, .evi 0 (some 32)])])] := by decide +kernel
/-- The register itself is not among the state machines: it is tried because none is reported. -/
example : getActive c48reset .ok (fun _ => .ok 2) [] c23s true (.branch c48rstn c48t (.evi 0 (some 32)))
    (activeConstant .gt 0) = .ok [(c23s, [(0, .none), (2, .none), (3, .none), (1, .op .greaterThan [.term c23d, .evi 0 (some 32)])])] := by decide +kernel
example : getActive c48reset .ok (fun _ => .ok 2) [c23s] c68y true (.branch c48rstn (.evi 1 (some 32)) (.evi 0 (some 32)))
    (activeConstant .gt 0) = .error .type := by decide +kernel

end Pyv
