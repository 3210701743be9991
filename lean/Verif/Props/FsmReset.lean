import Verif.Props.FsmBuild
/-
  C46, C48: what dropping the reset conditions means, and the state machine of a register after all steps.
-/
namespace Pyv

/-! ### Specification -/

/-- The design is out of reset, as far as the condition lists show: no list of reset conditions only holds, and the
reset conditions that stand beside other conditions hold (`!rst` in normal operation). -/
def OutOfReset (isReset : DF → Bool) (ρ : Env) (fd : FuncDict) : Prop :=
  (∀ e ∈ fd, (∀ c ∈ e.1, isReset c = true) → ¬ AllHold ρ e.1) ∧
  (∀ e ∈ fd, (∃ c ∈ e.1, isReset c = false) → ∀ r ∈ e.1, isReset r = true → Holds ρ r)

/-! ### C46 -/

theorem removeReset_nodup (isReset : DF → Bool) (fd : FuncDict) : Dict.Nodup (removeResetCondition isReset fd) := by
  have hnd := removeLoop_nodup (isReset := isReset) fd [] (by simp [Dict.Nodup])
  unfold removeResetCondition
  simp only
  split
  · unfold Dict.Nodup Dict.del at *
    exact hnd.sublist (List.filter_sublist.map _)
  · exact hnd

theorem Dict.get?_of_mem {κ α : Type} [DecidableEq κ] {d : Dict κ α} (h : Dict.Nodup d) {k : κ} {v : α}
    (hm : (k, v) ∈ d) : d.get? k = some v := by
  induction d with
  | nil => simp at hm
  | cons p d ih =>
    obtain ⟨a, b⟩ := p
    unfold Dict.Nodup at h
    rw [List.map_cons, List.nodup_cons] at h
    rw [Dict.get?_cons]
    rcases List.mem_cons.mp hm with e | hm
    · simp at e; simp [e]
    · rw [if_neg]
      · exact ih h.2 hm
      · simp only
        rintro rfl
        exact h.1 (List.mem_map.mpr ⟨_, hm, rfl⟩)

theorem filter_reset_nil {isReset : DF → Bool} {cs : List DF} :
    cs.filter (fun c => !isReset c) = [] ↔ ∀ c ∈ cs, isReset c = true := by
  rw [List.filter_eq_nil_iff]; simp

/-- **C46** What dropping the reset conditions means: out of reset, and when some list has a condition that is not a
reset condition, the functions selected by the lists that hold are the same before and after. -/
theorem C46_semantics (isReset : DF → Bool) (ρ : Env) (fd : FuncDict)
    (hex : ∀ p q, p ∈ fd → q ∈ fd → AllHold ρ p.1 → AllHold ρ q.1 → p = q) (hout : OutOfReset isReset ρ fd)
    (hne : ∃ e ∈ fd, ∃ c ∈ e.1, isReset c = false) (g : DF) :
    (∃ k, (k, g) ∈ removeResetCondition isReset fd ∧ AllHold ρ k) ↔ ∃ cs, (cs, g) ∈ fd ∧ AllHold ρ cs := by
  have hnot : ¬ ∀ p ∈ fd, p.1.filter (fun c => !isReset c) = [] := by
    intro h
    obtain ⟨e, he, c, hc, hr⟩ := hne
    have := filter_reset_nil.mp (h e he) c hc
    rw [hr] at this; simp at this
  -- a list whose remaining conditions hold, holds
  have hold : ∀ e ∈ fd, e.1.filter (fun c => !isReset c) ≠ [] → AllHold ρ (e.1.filter (fun c => !isReset c)) →
      AllHold ρ e.1 := by
    intro e he hk h c hc
    cases hr : isReset c with
    | false => exact h c (List.mem_filter.mpr ⟨hc, by simp [hr]⟩)
    | true =>
      refine hout.2 e he ?_ c hc hr
      have h1 := fun h => hk (filter_reset_nil.mpr h)
      by_contra h2
      apply h1
      intro x hx
      cases hx2 : isReset x with
      | true => rfl
      | false => exact absurd ⟨x, hx, hx2⟩ h2
  constructor
  · rintro ⟨k, hk, hh⟩
    have hg := Dict.get?_of_mem (removeReset_nodup isReset fd) hk
    have hkne : k ≠ [] := by
      rintro rfl
      rw [C46_unconditional_entry, if_neg hnot] at hg
      simp at hg
    rw [C46_reset_removal isReset fd k hkne] at hg
    cases hl : (fd.filter (fun p => decide (p.1.filter (fun c => !isReset c) = k))).getLast? with
    | none => simp [hl] at hg
    | some e =>
      simp [hl] at hg
      have hm := List.mem_of_getLast? hl
      simp only [List.mem_filter, decide_eq_true_eq] at hm
      refine ⟨e.1, by rw [← hg]; exact hm.1, hold e hm.1 (by rw [hm.2]; exact hkne) (by rw [hm.2]; exact hh)⟩
  · rintro ⟨cs, hcs, hh⟩
    have hkne : cs.filter (fun c => !isReset c) ≠ [] := by
      intro h
      exact hout.1 _ hcs (filter_reset_nil.mp h) hh
    have hg := C46_reset_removal isReset fd _ hkne
    have hm' : (cs, g) ∈ fd.filter (fun p => decide (p.1.filter (fun c => !isReset c) = cs.filter (fun c => !isReset c))) := by
      simp [hcs]
    have hks : AllHold ρ (cs.filter (fun c => !isReset c)) := fun c hc => hh c (List.mem_filter.mp hc).1
    cases hl : (fd.filter (fun p => decide (p.1.filter (fun c => !isReset c) = cs.filter (fun c => !isReset c)))).getLast? with
    | none => rw [List.getLast?_eq_none_iff] at hl; rw [hl] at hm'; simp at hm'
    | some e =>
      have hm := List.mem_of_getLast? hl
      simp only [List.mem_filter, decide_eq_true_eq] at hm
      have := hex e (cs, g) hm.1 hcs (hold e hm.1 (by rw [hm.2]; exact hkne) (by rw [hm.2]; exact hks)) hh
      subst this
      rw [hl] at hg
      simp at hg
      exact ⟨_, Dict.mem_of_get? hg, hks⟩

/-! ### C48: the machine after all steps -/

theorem walkCondlist_defined {ρ : Env} {name : ScopeChain} {width : Nat} {v : Int} {conds : List DF}
    (hs : StateIs ρ name width v) (hr : ∀ c ∈ conds, Readable name width c ρ false)
    {sn : SN} (h : walkCondlist conds name width = .ok (some sn)) :
    ∀ n ∈ nodesOf sn, ∀ t, n.tc = some t → Defined ρ t := by
  unfold walkCondlist at h
  split at h
  · simp only [ok_inj, Option.some.injEq] at h; subst h
    simp [nodesOf]
  · obtain ⟨xs, f, e⟩ := walkCondLoop_eq (Q := fun _ x => SNOK ρ width x) conds none _ h (by
      intro c hc r hcr
      have hR := walkCond_reads name width c ρ v false r hs (hr c hc) hcr
      obtain ⟨sn, rfl, _⟩ := hR.2.2.2 rfl
      exact ⟨sn, rfl, hR.2.1 sn rfl⟩)
    have hx : ∀ x ∈ xs, SNOK ρ width x := by
      intro x hx
      obtain ⟨c, _, _, h⟩ := forall₂_mem_right f x hx
      exact h
    obtain ⟨res', e', _, h3, _⟩ := notFold_spec xs none (by simp) (fun x hx' => (hx x hx').wf)
    rw [e'] at e; simp only [ok_inj] at e; subst e
    intro n hn
    exact ((h3 ρ (by simp) hx sn rfl).nodes n hn).2

/-- Invariant: the table of states and the table of every state have no repeated key. -/
def Fsm.Tidy (m : Fsm) : Prop := Dict.Nodup m.fsm ∧ ∀ p ∈ m.fsm, Dict.Nodup p.2

theorem Dict.mem_set {κ α : Type} [DecidableEq κ] {d : Dict κ α} {k : κ} {v : α} {p : κ × α} (h : p ∈ d.set k v) :
    p ∈ d ∨ p = (k, v) := by
  induction d with
  | nil => simp [Dict.set] at h; exact .inr h
  | cons q d ih =>
    obtain ⟨a, b⟩ := q
    simp only [Dict.set] at h
    split at h
    · rcases List.mem_cons.mp h with rfl | h
      · exact .inr rfl
      · exact .inl (by simp [h])
    · rcases List.mem_cons.mp h with rfl | h
      · exact .inl (by simp)
      · exact (ih h).imp (fun h => by simp [h]) id

theorem construct_tidy {m : Fsm} (h : m.Tidy) (d : Int) (n : SNode) : (m.construct d n).Tidy := by
  have one : ∀ (x : Dict Int DstDict) (s : Int), (Dict.Nodup x ∧ ∀ p ∈ x, Dict.Nodup p.2) →
      Dict.Nodup (Fsm.addOne x s d n.tc) ∧ ∀ p ∈ Fsm.addOne x s d n.tc, Dict.Nodup p.2 := by
    rintro x s ⟨h1, h2⟩
    unfold Fsm.addOne
    refine ⟨Dict.nodup_set h1 _ _, ?_⟩
    intro p hp
    rcases Dict.mem_set hp with hp | rfl
    · exact h2 p hp
    · apply Dict.nodup_set
      cases hg : Dict.get? x s with
      | none => simp [Dict.Nodup]
      | some t => exact h2 _ (Dict.mem_of_get? hg)
  have many : ∀ (l : List Int) (x : Dict Int DstDict), (Dict.Nodup x ∧ ∀ p ∈ x, Dict.Nodup p.2) →
      Dict.Nodup (l.foldl (fun x s => Fsm.addOne x s d n.tc) x) ∧
      ∀ p ∈ l.foldl (fun x s => Fsm.addOne x s d n.tc) x, Dict.Nodup p.2 := by
    intro l
    induction l with
    | nil => intro x h; exact h
    | cons s l ih => intro x h; exact ih _ (one x s h)
  have ranges : ∀ (l : List (Int × Int)) (m : Fsm), m.Tidy → (l.foldl (fun m rp => m.add rp d n.tc) m).Tidy := by
    intro l
    induction l with
    | nil => intro m h; exact h
    | cons rp l ih => intro m h; exact ih _ (many _ _ h)
  unfold Fsm.construct
  apply ranges
  split
  · exact h
  · exact h

theorem getFsm_tidy {name : ScopeChain} {width : Nat} {fd : FuncDict} {m : Fsm} (h : getFsm name width fd = .ok m) :
    m.Tidy := by
  obtain ⟨calls, rfl, _⟩ := getFsm_calls h
  have : ∀ (l : List (Int × SNode)) (m : Fsm), m.Tidy → (l.foldl (fun m call => m.construct call.1 call.2) m).Tidy := by
    intro l
    induction l with
    | nil => intro m h; exact h
    | cons c l ih => intro m h; exact ih _ (construct_tidy h _ _)
  exact this _ _ ⟨by simp [Dict.Nodup], by simp⟩

theorem newDst_nodup : ∀ (j : Dict Int (Option DF)) (n d : DstDict), Dict.Nodup n → newDst j n = .ok d → Dict.Nodup d := by
  intro j
  induction j with
  | nil => intro n d hn h; simp [newDst] at h; subst h; exact hn
  | cons e j ih =>
    intro n d hn h
    obtain ⟨dst, cond⟩ := e
    simp only [newDst, bind_ok] at h
    obtain ⟨b, _, h⟩ := h
    exact ih _ _ (Dict.nodup_set hn _ _) h

theorem resolve_tables {opt : DF → Py DF} {m r : Fsm} (h : m.resolve opt = .ok r) : ∀ s d, r.fsm.get? s = some d → Dict.Nodup d := by
  unfold Fsm.resolve at h
  simp only [bind_ok, ok_inj] at h
  obtain ⟨n, hl, rfl⟩ := h
  have : ∀ (l : List (Int × DstDict)) (n r : Dict Int DstDict), resolveLoop opt l n = .ok r →
      (∀ p ∈ n, Dict.Nodup p.2) → ∀ p ∈ r, Dict.Nodup p.2 := by
    intro l
    induction l with
    | nil => intro n r h hn; simp [resolveLoop] at h; subst h; exact hn
    | cons e l ih =>
      intro n r h hn
      obtain ⟨src, d⟩ := e
      simp only [resolveLoop, bind_ok] at h
      obtain ⟨d', hd, h⟩ := h
      refine ih _ _ h ?_
      intro p hp
      rcases Dict.mem_set hp with hp | rfl
      · exact hn p hp
      · unfold resolveState at hd
        simp only [bind_ok] at hd
        obtain ⟨j, _, hd⟩ := hd
        exact newDst_nodup _ _ _ (by simp [Dict.Nodup]) hd
  intro s d hg
  exact this _ _ _ hl (by simp) _ (Dict.mem_of_get? hg)

theorem next_allows {m : Fsm} {ρ : Env} {v d : Int} (h : ∀ t, m.fsm.get? v = some t → Dict.Nodup t) :
    (∃ c, m.next? v c = some d ∧ CondHolds ρ c) ↔ ∃ t, m.fsm.get? v = some t ∧ Allows ρ t d := by
  unfold Fsm.next? Allows
  cases hg : m.fsm.get? v with
  | none => simp
  | some t =>
    simp only [Option.bind_some, Option.some.injEq, exists_eq_left']
    constructor
    · rintro ⟨c, h1, h2⟩; exact ⟨c, Dict.mem_of_get? h1, h2⟩
    · rintro ⟨c, h1, h2⟩; exact ⟨c, Dict.get?_of_mem (h t hg) h1, h2⟩

/-- The steps of `getFiniteStateMachines` for one register (controlflow_analyzer.py:46-62, 86-98): split the tree, drop
the reset conditions, build the machine, resolve it. -/
def machineOf (isReset : DF → Bool) (opt : DF → Py DF) (name : ScopeChain) (width : Nat) (tree : DF) : Py Fsm := do
  let fd ← split tree
  let m ← getFsm name width (removeResetCondition isReset fd)
  m.resolve opt

/-- **C48** The state machine obtained in the end, after dropping the reset conditions and resolving, allows in state
`v` and under every valuation out of reset the next state `d` exactly when the tree selects the constant `d`. -/
theorem C48_machine_follows_tree_partial (isReset : DF → Bool) (opt : DF → Py DF) (ρ : Env) (name : ScopeChain)
    (width : Nat) (v : Int) (c t f : DF) (fd : FuncDict) (r : Fsm) (hs : StateIs ρ name width v)
    (hopt : ∀ c r, Defined ρ c → opt c = .ok r → Defined ρ r ∧ (Holds ρ r ↔ Holds ρ c))
    (hh : NoHollow (.branch c t f)) (hf : split (.branch c t f) = .ok fd)
    (hout : OutOfReset isReset ρ fd) (hne : ∃ e ∈ fd, ∃ c ∈ e.1, isReset c = false)
    (hr : FsmReadable ρ name width (removeResetCondition isReset fd))
    (hm : machineOf isReset opt name width (.branch c t f) = .ok r) (d : Int) :
    r.Steps ρ v d ↔ ∃ w a b, selectLeaf ρ (.branch c t f) = some (.ev (.int d) w a b) := by
  unfold machineOf at hm
  simp only [hf, ok_bind, bind_ok] at hm
  obtain ⟨m, hm, hres⟩ := hm
  have hsel : ∀ g, (∃ k, (k, g) ∈ removeResetCondition isReset fd ∧ AllHold ρ k) ↔
      selectLeaf ρ (.branch c t f) = some g := fun g =>
    (C46_semantics isReset ρ fd (C18_split_exclusive ρ _ fd hf) hout hne g).trans (C18_split_selects ρ c t f fd hh hf g)
  have key := fsm_follows ρ name width v _ (fun g => selectLeaf ρ (.branch c t f) = some g) hsel
    (fun g g' h h' => by rw [h] at h'; exact Option.some.inj h') m hs hm hr
  rw [← key d]
  obtain ⟨hany, htab⟩ := C27_resolve ρ opt hopt m r (getFsm_tidy hm).1 hres
  have tm : ∀ t, m.fsm.get? v = some t → Dict.Nodup t := fun t ht => (getFsm_tidy hm).2 _ (Dict.mem_of_get? ht)
  have split_steps : ∀ m : Fsm, m.Steps ρ v d ↔ (∃ c, m.next? v c = some d ∧ CondHolds ρ c) ∨
      ∃ c, Dict.get? m.any c = some d ∧ CondHolds ρ c := by
    intro m
    unfold Fsm.Steps
    constructor
    · rintro ⟨c, h | h, h2⟩
      · exact .inl ⟨c, h, h2⟩
      · exact .inr ⟨c, h, h2⟩
    · rintro (⟨c, h, h2⟩ | ⟨c, h, h2⟩)
      · exact ⟨c, .inl h, h2⟩
      · exact ⟨c, .inr h, h2⟩
  rw [split_steps, split_steps, hany, next_allows (resolve_tables hres v), next_allows tm]
  have := htab v
  cases hg : m.fsm.get? v with
  | none =>
    rw [hg] at this
    simp only at this
    simp [this]
  | some tb =>
    rw [hg] at this
    simp only at this
    obtain ⟨tb', h1, h2⟩ := this
    have h3 := h2 ?_ ?_ d
    · simp only [h1, Option.some.injEq, exists_eq_left', h3]
    · -- the conditions recorded have a value
      intro e he cnd hc
      have hn : m.next? v e.1 = some e.2 := by
        unfold Fsm.next?
        rw [hg]
        exact Dict.get?_of_mem (tm tb hg) he
      obtain ⟨calls, rfl, hcalls⟩ := getFsm_calls hm
      classical
      rw [C27_construct] at hn
      cases hl : (calls.filter (fun call => decide (Covers v e.1 call))).getLast? with
      | none => simp [hl] at hn
      | some call =>
        have hmem := List.mem_of_getLast? hl
        simp only [List.mem_filter, decide_eq_true_eq] at hmem
        obtain ⟨hmem, hcov⟩ := hmem
        obtain ⟨en, hen, w, a, b, sn, hev, hw, hnn⟩ := (hcalls call).mp hmem
        exact walkCondlist_defined hs (fun c hc => ((hr en hen _ _ _ _ hev).1 c hc).2) hw _ hnn cnd (by rw [hcov.1, hc])
    · -- at most one next state is allowed
      intro x y hx hy
      have st : ∀ z, Allows ρ tb z → ∃ w a b, selectLeaf ρ (.branch c t f) = some (.ev (.int z) w a b) := by
        intro z hz
        refine (key z).mp ?_
        obtain ⟨cn, h1, h2⟩ := (next_allows (m := m) (ρ := ρ) (v := v) (d := z) tm).mpr ⟨tb, hg, hz⟩
        exact ⟨cn, .inl h1, h2⟩
      obtain ⟨_, _, _, h1⟩ := st x hx
      obtain ⟨_, _, _, h2⟩ := st y hy
      rw [h1] at h2
      simp at h2
      exact h2.1

/-- Non-vacuity of C46 and C48: the tree `rstn ? (s == 1 ? (d ? 2 : 0) : 3) : 0`, with `rstn` not asserted. -/
def c48rstn : DF := .term [⟨['r', 's', 't', 'n'], .signal, none⟩]
def c48reset (c : DF) : Bool := decide (c = c48rstn) || decide (c = .op .ulnot [c48rstn])
def c48full : FuncDict := [([c48rstn, c48c, .term c23d], .evi 2 (some 32)),
  ([c48rstn, c48c, .op .ulnot [.term c23d]], .evi 0 (some 32)), ([c48rstn, .op .ulnot [c48c]], .evi 3 (some 32)),
  ([.op .ulnot [c48rstn]], .evi 0 (some 32))]
theorem c48_holds_rstn : Holds (c23env 1 1) c48rstn := by simp [Holds, c48rstn, sem, c23env, c23s]
theorem c48_out : OutOfReset c48reset (c23env 1 1) c48full := by
  have h := c48_holds_rstn
  have hn : ¬ Holds (c23env 1 1) (.op .ulnot [c48rstn]) := by
    rw [holds_not_iff]
    · exact fun hh => hh h
    · obtain ⟨x, hx, _⟩ := h; exact ⟨x, hx⟩
  refine ⟨?_, ?_⟩
  · intro e he hall hh
    simp only [c48full, List.mem_cons, List.not_mem_nil, or_false] at he
    rcases he with rfl | rfl | rfl | rfl
    · exact absurd (hall c48c (by simp)) (by decide +kernel)
    · exact absurd (hall c48c (by simp)) (by decide +kernel)
    · exact absurd (hall (.op .ulnot [c48c]) (by simp)) (by decide +kernel)
    · exact hn (hh _ (by simp))
  · rintro e he ⟨c, hc, hcr⟩ r hr hrr
    simp only [c48full, List.mem_cons, List.not_mem_nil, or_false] at he
    rcases he with rfl | rfl | rfl | rfl
    · simp only [List.mem_cons, List.not_mem_nil, or_false] at hr
      rcases hr with rfl | rfl | rfl
      · exact h
      · exact absurd hrr (by decide +kernel)
      · exact absurd hrr (by decide +kernel)
    · simp only [List.mem_cons, List.not_mem_nil, or_false] at hr
      rcases hr with rfl | rfl | rfl
      · exact h
      · exact absurd hrr (by decide +kernel)
      · exact absurd hrr (by decide +kernel)
    · simp only [List.mem_cons, List.not_mem_nil, or_false] at hr
      rcases hr with rfl | rfl
      · exact h
      · exact absurd hrr (by decide +kernel)
    · simp only [List.mem_cons, List.not_mem_nil, or_false] at hc
      subst hc
      exact absurd hcr (by decide +kernel)
theorem c48_removed : split (.branch c48rstn c48t (.evi 0 (some 32))) = .ok c48full ∧
    removeResetCondition c48reset c48full = c48fd := by decide +kernel
example : ∃ r, machineOf c48reset .ok c23s 2 (.branch c48rstn c48t (.evi 0 (some 32))) = .ok r := by
  cases h : machineOf c48reset .ok c23s 2 (.branch c48rstn c48t (.evi 0 (some 32))) with
  | ok m => exact ⟨m, rfl⟩
  | error e =>
    have : (match machineOf c48reset .ok c23s 2 (.branch c48rstn c48t (.evi 0 (some 32))) with
      | .ok _ => true | .error _ => false) = true := by decide +kernel
    rw [h] at this
    exact absurd this (by simp)
example (r : Fsm) (hm : machineOf c48reset .ok c23s 2 (.branch c48rstn c48t (.evi 0 (some 32))) = .ok r) (d : Int) :
    r.Steps (c23env 1 1) 1 d ↔ d = 2 := by
  rw [C48_machine_follows_tree_partial c48reset .ok (c23env 1 1) c23s 2 1 _ _ _ c48full r
    ⟨⟨2, by simp [c23env]⟩, by decide, by decide⟩ (by rintro c _ h ⟨⟩; exact ⟨h, Iff.rfl⟩)
    (by simp [c48t, NoHollow, HasLeaf, DF.evi]) c48_removed.1 c48_out
    ⟨_, List.mem_cons_self, c48c, by simp, by decide +kernel⟩ (by rw [c48_removed.2]; exact c48_readable) hm]
  have : selectLeaf (c23env 1 1) (.branch c48rstn c48t (.evi 0 (some 32))) = some (.evi 2 (some 32)) := by
    simp [selectLeaf, c48t, c48rstn, c48c, sem, semList, c23env, c23s, c23d, DF.evi, opSem, b2i]
  rw [this]
  simp [DF.evi, eq_comm]

end Pyv
