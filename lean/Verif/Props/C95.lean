import Verif.FsmGraph
import Verif.Props.FsmReset
import Verif.Props.ARangeLists
import Verif.Props.DumpProps
/-
  C95: the drawn state machine.
-/
namespace Pyv

/-! ### Specification -/

/-- The machine has an own entry for the state. -/
def Fsm.State (m : Fsm) (s : Int) : Prop := ∃ dd, (s, dd) ∈ m.fsm
/-- A transition of the state. -/
def Fsm.Own (m : Fsm) (s : Int) (c : Option DF) (d : Int) : Prop := ∃ dd, (s, dd) ∈ m.fsm ∧ (c, d) ∈ dd
/-- A transition possible in every state. -/
def Fsm.Ever (m : Fsm) (c : Option DF) (d : Int) : Prop := (c, d) ∈ m.any
/-- A transition from a state of the machine. -/
def Fsm.Goes (m : Fsm) (s : Int) (c : Option DF) (d : Int) : Prop := m.Own s c d ∨ m.State s ∧ m.Ever c d

/-- Two lists of transitions with the same targets and with conditions that are drawn alike. -/
def DstAlike (dd ee : DstDict) : Prop := List.Forall₂ (fun p q => p.2 = q.2 ∧ condLabel false p.1 = condLabel false q.1) dd ee
/-- Two machines whose conditions are drawn alike. -/
def Fsm.Alike (m n : Fsm) : Prop := List.Forall₂ (fun p q => p.1 = q.1 ∧ DstAlike p.2 q.2) m.fsm n.fsm ∧ DstAlike m.any n.any

/-! ### Lemmas -/

open Classical in
theorem drawDst_nodes {nl s} : ∀ {dd : DstDict} {g g' : FsmGraph}, drawDst nl s dd g = .ok g' → ∀ k,
    g'.nodes.get? k = if ∃ c d, (c, d) ∈ dd ∧ intStr d = k then some k else g.nodes.get? k
  | [], g, g', h, k => by
    simp only [drawDst, ok_inj] at h
    subst h
    simp
  | (c, d) :: dd, g, g', h, k => by
    simp only [drawDst, bind_ok] at h
    obtain ⟨l, _, h⟩ := h
    rw [drawDst_nodes h k]
    simp only [Dict.get?_set]
    by_cases h1 : ∃ c d, (c, d) ∈ dd ∧ intStr d = k
    · rw [if_pos h1, if_pos]
      obtain ⟨c', d', hm, hd⟩ := h1
      exact ⟨c', d', List.mem_cons_of_mem _ hm, hd⟩
    · rw [if_neg h1]
      by_cases h2 : intStr d = k
      · rw [if_pos h2, if_pos ⟨c, d, List.mem_cons_self .., h2⟩, h2]
      · rw [if_neg h2, if_neg]
        rintro ⟨c', d', hm, hd⟩
        rcases List.mem_cons.mp hm with hm | hm
        · simp only [Prod.mk.injEq] at hm
          exact h2 (hm.2 ▸ hd)
        · exact h1 ⟨c', d', hm, hd⟩

theorem drawDst_edges {nl s} : ∀ {dd : DstDict} {g g' : FsmGraph}, drawDst nl s dd g = .ok g' → ∀ a b,
    (∃ c l, s = a ∧ (c, b) ∈ dd ∧ condLabel nl c = .ok l ∧ g'.edges.get? (intStr a, intStr b) = some l) ∨
    ((s = a → ∀ c, (c, b) ∉ dd) ∧ g'.edges.get? (intStr a, intStr b) = g.edges.get? (intStr a, intStr b))
  | [], g, g', h, a, b => by
    simp only [drawDst, ok_inj] at h
    subst h
    exact .inr ⟨by simp, rfl⟩
  | (c, d) :: dd, g, g', h, a, b => by
    simp only [drawDst, bind_ok] at h
    obtain ⟨l, hl, h⟩ := h
    rcases drawDst_edges h a b with ⟨c', l', h1, h2, h3, h4⟩ | ⟨h1, h2⟩
    · exact .inl ⟨c', l', h1, List.mem_cons_of_mem _ h2, h3, h4⟩
    · simp only [Dict.get?_set, Prod.mk.injEq] at h2
      by_cases e : intStr s = intStr a ∧ intStr d = intStr b
      · rw [if_pos e] at h2
        obtain rfl := intStr_inj' e.1
        obtain rfl := intStr_inj' e.2
        exact .inl ⟨c, l, rfl, List.mem_cons_self .., hl, h2⟩
      · rw [if_neg e] at h2
        refine .inr ⟨fun es c' hm => ?_, h2⟩
        subst es
        rcases List.mem_cons.mp hm with hm | hm
        · simp only [Prod.mk.injEq] at hm
          exact e ⟨rfl, by rw [hm.2]⟩
        · exact h1 rfl c' hm

open Classical in
theorem drawStates_nodes {nl} : ∀ {ms : List (Int × DstDict)} {g g' : FsmGraph}, drawStates nl ms g = .ok g' → ∀ k,
    g'.nodes.get? k = if ∃ s dd, (s, dd) ∈ ms ∧ (intStr s = k ∨ ∃ c d, (c, d) ∈ dd ∧ intStr d = k) then some k else g.nodes.get? k
  | [], g, g', h, k => by
    simp only [drawStates, ok_inj] at h
    subst h
    simp
  | (s, dd) :: ms, g, g', h, k => by
    simp only [drawStates, bind_ok] at h
    obtain ⟨g1, h1, h⟩ := h
    rw [drawStates_nodes h k, drawDst_nodes h1 k]
    simp only [Dict.get?_set]
    by_cases a1 : ∃ s dd, (s, dd) ∈ ms ∧ (intStr s = k ∨ ∃ c d, (c, d) ∈ dd ∧ intStr d = k)
    · rw [if_pos a1, if_pos]
      obtain ⟨s', dd', hm, hd⟩ := a1
      exact ⟨s', dd', List.mem_cons_of_mem _ hm, hd⟩
    · rw [if_neg a1]
      by_cases a2 : ∃ c d, (c, d) ∈ dd ∧ intStr d = k
      · rw [if_pos a2, if_pos ⟨s, dd, List.mem_cons_self .., .inr a2⟩]
      · rw [if_neg a2]
        by_cases a3 : intStr s = k
        · rw [if_pos a3, if_pos ⟨s, dd, List.mem_cons_self .., .inl a3⟩, a3]
        · rw [if_neg a3, if_neg]
          rintro ⟨s', dd', hm, hd⟩
          rcases List.mem_cons.mp hm with hm | hm
          · simp only [Prod.mk.injEq] at hm
            obtain ⟨rfl, rfl⟩ := hm
            exact hd.elim a3 a2
          · exact a1 ⟨s', dd', hm, hd⟩

theorem drawStates_edges {nl} : ∀ {ms : List (Int × DstDict)} {g g' : FsmGraph}, drawStates nl ms g = .ok g' → ∀ a b,
    (∃ dd c l, (a, dd) ∈ ms ∧ (c, b) ∈ dd ∧ condLabel nl c = .ok l ∧ g'.edges.get? (intStr a, intStr b) = some l) ∨
    ((∀ dd c, (a, dd) ∈ ms → (c, b) ∉ dd) ∧ g'.edges.get? (intStr a, intStr b) = g.edges.get? (intStr a, intStr b))
  | [], g, g', h, a, b => by
    simp only [drawStates, ok_inj] at h
    subst h
    exact .inr ⟨by simp, rfl⟩
  | (s, dd) :: ms, g, g', h, a, b => by
    simp only [drawStates, bind_ok] at h
    obtain ⟨g1, h1, h⟩ := h
    rcases drawStates_edges h a b with ⟨dd', c, l, x1, x2, x3, x4⟩ | ⟨y1, y2⟩
    · exact .inl ⟨dd', c, l, List.mem_cons_of_mem _ x1, x2, x3, x4⟩
    · rcases drawDst_edges h1 a b with ⟨c, l, rfl, x2, x3, x4⟩ | ⟨z1, z2⟩
      · exact .inl ⟨dd, c, l, List.mem_cons_self .., x2, x3, by rw [y2, x4]⟩
      · refine .inr ⟨fun dd' c hm => ?_, by rw [y2, z2]⟩
        rcases List.mem_cons.mp hm with hm | hm
        · simp only [Prod.mk.injEq] at hm
          obtain ⟨rfl, rfl⟩ := hm
          exact z1 rfl c
        · exact y1 dd' c hm

open Classical in
theorem drawAny_nodes {nl any} : ∀ {ss : List Int} {g g' : FsmGraph}, drawAny nl any ss g = .ok g' → ∀ k,
    g'.nodes.get? k = if ss ≠ [] ∧ ∃ c d, (c, d) ∈ any ∧ intStr d = k then some k else g.nodes.get? k
  | [], g, g', h, k => by
    simp only [drawAny, ok_inj] at h
    subst h
    simp
  | s :: ss, g, g', h, k => by
    simp only [drawAny, bind_ok] at h
    obtain ⟨g1, h1, h⟩ := h
    rw [drawAny_nodes h k, drawDst_nodes h1 k]
    by_cases a : ∃ c d, (c, d) ∈ any ∧ intStr d = k
    · by_cases e : ss = [] <;> simp [a, e]
    · simp [a]

theorem drawAny_edges {nl any} : ∀ {ss : List Int} {g g' : FsmGraph}, drawAny nl any ss g = .ok g' → ∀ a b,
    (∃ c l, a ∈ ss ∧ (c, b) ∈ any ∧ condLabel nl c = .ok l ∧ g'.edges.get? (intStr a, intStr b) = some l) ∨
    ((a ∈ ss → ∀ c, (c, b) ∉ any) ∧ g'.edges.get? (intStr a, intStr b) = g.edges.get? (intStr a, intStr b))
  | [], g, g', h, a, b => by
    simp only [drawAny, ok_inj] at h
    subst h
    exact .inr ⟨by simp, rfl⟩
  | s :: ss, g, g', h, a, b => by
    simp only [drawAny, bind_ok] at h
    obtain ⟨g1, h1, h⟩ := h
    rcases drawAny_edges h a b with ⟨c, l, x1, x2, x3, x4⟩ | ⟨y1, y2⟩
    · exact .inl ⟨c, l, List.mem_cons_of_mem _ x1, x2, x3, x4⟩
    · rcases drawDst_edges h1 a b with ⟨c, l, rfl, x2, x3, x4⟩ | ⟨z1, z2⟩
      · exact .inl ⟨c, l, List.mem_cons_self .., x2, x3, by rw [y2, x4]⟩
      · refine .inr ⟨fun hm => ?_, by rw [y2, z2]⟩
        rcases List.mem_cons.mp hm with rfl | hm
        · exact z1 rfl
        · exact y1 hm

theorem mem_states {m : Fsm} {s : Int} : s ∈ m.fsm.map (·.1) ↔ m.State s := by
  simp [Fsm.State]

/-- The label of an edge: of a transition possible in every state, if one leads there; otherwise of a transition of the state. -/
theorem tograph_edges {nl : Bool} {m : Fsm} {g : FsmGraph} (h : m.tograph nl = .ok g) (a b : Int) :
    (∃ c l, m.State a ∧ m.Ever c b ∧ condLabel nl c = .ok l ∧ g.edges.get? (intStr a, intStr b) = some l) ∨
    ((m.State a → ∀ c, ¬ m.Ever c b) ∧ ((∃ c l, m.Own a c b ∧ condLabel nl c = .ok l ∧ g.edges.get? (intStr a, intStr b) = some l) ∨
      ((∀ c, ¬ m.Own a c b) ∧ g.edges.get? (intStr a, intStr b) = none))) := by
  simp only [Fsm.tograph, bind_ok] at h
  obtain ⟨g1, h1, h⟩ := h
  rcases drawAny_edges h a b with ⟨c, l, x1, x2, x3, x4⟩ | ⟨y1, y2⟩
  · exact .inl ⟨c, l, mem_states.mp x1, x2, x3, x4⟩
  · refine .inr ⟨fun hs => y1 (mem_states.mpr hs), ?_⟩
    rcases drawStates_edges h1 a b with ⟨dd, c, l, x1, x2, x3, x4⟩ | ⟨z1, z2⟩
    · exact .inl ⟨c, l, ⟨dd, x1, x2⟩, x3, by rw [y2, x4]⟩
    · refine .inr ⟨?_, by rw [y2, z2]; rfl⟩
      rintro c ⟨dd, k1, k2⟩
      exact z1 dd c k1 k2

theorem newDst_unique : ∀ {j : Dict Int (Option DF)} {n r : DstDict}, Dict.Nodup j → newDst j n = .ok r →
    (∀ c d, (c, d) ∈ n → d ∉ j.map (·.1)) → (∀ c c' d, (c, d) ∈ n → (c', d) ∈ n → c = c') → ∀ c c' d, (c, d) ∈ r → (c', d) ∈ r → c = c'
  | [], n, r, _, h, _, hu => by
    simp only [newDst, ok_inj] at h
    subst h; exact hu
  | (dst, cond) :: j, n, r, hj, h, hd, hu => by
    simp only [newDst, bind_ok] at h
    obtain ⟨b, _, h⟩ := h
    simp only [Dict.Nodup, List.map_cons, List.nodup_cons] at hj
    refine newDst_unique hj.2 h ?_ ?_
    · intro c d hm hj'
      rcases Dict.mem_set hm with hm | hm
      · exact hd c d hm (List.mem_cons_of_mem _ hj')
      · simp only [Prod.mk.injEq] at hm
        rw [hm.2] at hj'
        exact hj.1 hj'
    · intro c c' d h1 h2
      rcases Dict.mem_set h1 with h1 | h1 <;> rcases Dict.mem_set h2 with h2 | h2
      · exact hu c c' d h1 h2
      · simp only [Prod.mk.injEq] at h2
        exact absurd (by simp [h2.2]) (hd c d h1)
      · simp only [Prod.mk.injEq] at h1
        exact absurd (by simp [h1.2]) (hd c' d h2)
      · simp only [Prod.mk.injEq] at h1 h2
        rw [h1.1, h2.1]

theorem joinConds_nodup {opt} : ∀ {l : List (Option DF × Int)} {d r : Dict Int (Option DF)}, Dict.Nodup d → joinConds opt l d = .ok r → Dict.Nodup r
  | [], d, r, hd, h => by
    simp only [joinConds, ok_inj] at h
    subst h; exact hd
  | (c, x) :: l, d, r, hd, h => by
    rw [joinConds] at h
    split at h
    · exact joinConds_nodup (Dict.nodup_set hd _ _) h
    · exact joinConds_nodup hd h
    · split at h
      · exact joinConds_nodup (Dict.nodup_set hd _ _) h
      · simp only [bind_ok] at h
        obtain ⟨_, _, _, _, h⟩ := h
        exact joinConds_nodup (Dict.nodup_set hd _ _) h

theorem resolveState_unique {opt} {d r : DstDict} (h : resolveState opt d = .ok r) : ∀ c c' x, (c, x) ∈ r → (c', x) ∈ r → c = c' := by
  simp only [resolveState, bind_ok] at h
  obtain ⟨j, hj, h⟩ := h
  exact newDst_unique (joinConds_nodup (by simp [Dict.Nodup]) hj) h (by simp) (by simp)

theorem resolveLoop_unique {opt} : ∀ {l : List (Int × DstDict)} {n r : Dict Int DstDict}, Dict.Nodup n →
    (∀ s dd, (s, dd) ∈ n → ∀ c c' x, (c, x) ∈ dd → (c', x) ∈ dd → c = c') → resolveLoop opt l n = .ok r →
    Dict.Nodup r ∧ ∀ s dd, (s, dd) ∈ r → ∀ c c' x, (c, x) ∈ dd → (c', x) ∈ dd → c = c'
  | [], n, r, hn, hu, h => by
    simp only [resolveLoop, ok_inj] at h
    subst h; exact ⟨hn, hu⟩
  | (s, d) :: l, n, r, hn, hu, h => by
    simp only [resolveLoop, bind_ok] at h
    obtain ⟨d', hd, h⟩ := h
    refine resolveLoop_unique (Dict.nodup_set hn _ _) ?_ h
    intro s' dd hm
    rcases Dict.mem_set hm with hm | hm
    · exact hu s' dd hm
    · simp only [Prod.mk.injEq] at hm
      rw [hm.2]
      exact resolveState_unique hd

/-- In a resolved machine a state has one condition for each next state. -/
theorem resolve_unique {opt} {m r : Fsm} (h : m.resolve opt = .ok r) {s : Int} {c c' : Option DF} {d : Int} (h1 : r.Own s c d) (h2 : r.Own s c' d) :
    c = c' := by
  simp only [Fsm.resolve, bind_ok, ok_inj] at h
  obtain ⟨n, hn, rfl⟩ := h
  obtain ⟨a, b⟩ := resolveLoop_unique (by simp [Dict.Nodup]) (by simp) hn
  obtain ⟨dd, k1, k2⟩ := h1
  obtain ⟨dd', k3, k4⟩ := h2
  have e1 := Dict.get?_of_mem a k1
  have e2 := Dict.get?_of_mem a k3
  rw [e1] at e2
  simp only [Option.some.injEq] at e2
  subst e2
  exact b s dd k1 c c' d k2 k4

theorem drawDst_alike {s} : ∀ {dd ee : DstDict}, DstAlike dd ee → ∀ g, drawDst false s dd g = drawDst false s ee g := by
  intro dd ee h
  induction h with
  | nil => intro g; rfl
  | cons h _ ih =>
    rename_i p q _ _ _
    obtain ⟨c, d⟩ := p
    obtain ⟨c', d'⟩ := q
    intro g
    obtain ⟨rfl, h⟩ := h
    simp only [drawDst] at *
    rw [h]
    congr 1
    funext l
    exact ih _

/-! ### Theorems -/

/-- **C95** The nodes: the states of the machine, and the states its transitions lead to. -/
theorem C95_nodes (nolabel : Bool) (m : Fsm) (g : FsmGraph) (h : m.tograph nolabel = .ok g) (k l : Str) :
    g.nodes.get? k = some l ↔ l = k ∧ ∃ s, k = intStr s ∧ (m.State s ∨ ∃ a c, m.Goes a c s) := by
  simp only [Fsm.tograph, bind_ok] at h
  obtain ⟨g1, h1, h⟩ := h
  rw [drawAny_nodes h k, drawStates_nodes h1 k]
  constructor
  · intro hk
    split at hk
    · rename_i hc
      obtain ⟨hne, c, d, hm, rfl⟩ := hc
      simp only [Option.some.injEq] at hk
      obtain ⟨s, hs⟩ := List.exists_mem_of_ne_nil _ hne
      exact ⟨hk.symm, d, rfl, .inr ⟨s, c, .inr ⟨mem_states.mp hs, hm⟩⟩⟩
    · split at hk
      · rename_i hc
        obtain ⟨s, dd, hm, hd⟩ := hc
        simp only [Option.some.injEq] at hk
        rcases hd with rfl | ⟨c, d, hd, rfl⟩
        · exact ⟨hk.symm, s, rfl, .inl ⟨dd, hm⟩⟩
        · exact ⟨hk.symm, d, rfl, .inr ⟨s, c, .inl ⟨dd, hm, hd⟩⟩⟩
      · simp [Dict.get?_nil] at hk
  · rintro ⟨rfl, s, rfl, hs⟩
    split
    · rfl
    · rename_i hn
      rw [if_pos]
      rcases hs with ⟨dd, hm⟩ | ⟨a, c, ⟨dd, hm, hd⟩ | ⟨hst, hd⟩⟩
      · exact ⟨s, dd, hm, .inl rfl⟩
      · exact ⟨a, dd, hm, .inr ⟨c, s, hd, rfl⟩⟩
      · exact absurd ⟨List.ne_nil_of_mem (mem_states.mpr hst), c, s, hd, rfl⟩ hn

/-- **C95** The lines: one from `a` to `b` exactly if the machine can go from `a` to `b`. -/
theorem C95_edges (nolabel : Bool) (m : Fsm) (g : FsmGraph) (h : m.tograph nolabel = .ok g) (a b : Int) :
    (g.edges.get? (intStr a, intStr b)).isSome ↔ ∃ c, m.Goes a c b := by
  rcases tograph_edges h a b with ⟨c, l, x1, x2, x3, x4⟩ | ⟨y1, ⟨c, l, x1, x2, x3⟩ | ⟨y2, y3⟩⟩
  · simp only [x4, Option.isSome_some, true_iff]
    exact ⟨c, .inr ⟨x1, x2⟩⟩
  · simp only [x3, Option.isSome_some, true_iff]
    exact ⟨c, .inl x1⟩
  · simp only [y3, Option.isSome_none, Bool.false_eq_true, false_iff]
    rintro ⟨c, hc | ⟨hs, hc⟩⟩
    · exact y2 c hc
    · exact y1 hs c hc

/-- **C95** A label is that of a transition along the line. -/
theorem C95_labels (nolabel : Bool) (m : Fsm) (g : FsmGraph) (h : m.tograph nolabel = .ok g) (a b : Int) (l : Str)
    (hl : g.edges.get? (intStr a, intStr b) = some l) : ∃ c, m.Goes a c b ∧ condLabel nolabel c = .ok l := by
  rcases tograph_edges h a b with ⟨c, l', x1, x2, x3, x4⟩ | ⟨y1, ⟨c, l', x1, x2, x3⟩ | ⟨y2, y3⟩⟩
  · rw [x4] at hl
    simp only [Option.some.injEq] at hl
    subst hl
    exact ⟨c, .inr ⟨x1, x2⟩, x3⟩
  · rw [x3] at hl
    simp only [Option.some.injEq] at hl
    subst hl
    exact ⟨c, .inl x1, x2⟩
  · rw [y3] at hl; cases hl

/-- **C95** In a resolved machine without transitions that are possible in every state, the label of a line is that of the only condition. -/
theorem C95_labels_resolved_partial (opt : DF → Py DF) (m0 m : Fsm) (hr : m0.resolve opt = .ok m) (ha : m.any = []) (g : FsmGraph)
    (h : m.tograph false = .ok g) (a b : Int) (c : Option DF) (hc : m.Goes a c b) :
    ∃ l, condLabel false c = .ok l ∧ g.edges.get? (intStr a, intStr b) = some l := by
  have hown : ∀ c, m.Goes a c b → m.Own a c b := by
    rintro c (h | ⟨_, h⟩)
    · exact h
    · simp [Fsm.Ever, ha] at h
  obtain ⟨l, hl⟩ := Option.isSome_iff_exists.mp ((C95_edges false m g h a b).mpr ⟨c, hc⟩)
  obtain ⟨c', h1, h2⟩ := C95_labels false m g h a b l hl
  obtain rfl := resolve_unique hr (hown _ hc) (hown _ h1)
  exact ⟨l, h2, hl⟩

/-- **C95** False in full: where a transition possible in every state leads to the same state, the condition of the state's own transition is
not drawn; the label is that of a transition possible in every state. -/
theorem C95_own_label_lost (m : Fsm) (g : FsmGraph) (h : m.tograph false = .ok g) (a b : Int) (c : Option DF) (hs : m.State a) (hc : m.Ever c b)
    (l : Str) (hl : g.edges.get? (intStr a, intStr b) = some l) : ∃ c', m.Ever c' b ∧ condLabel false c' = .ok l := by
  rcases tograph_edges h a b with ⟨c', l', x1, x2, x3, x4⟩ | ⟨y1, _⟩
  · rw [x4] at hl
    simp only [Option.some.injEq] at hl
    subst hl
    exact ⟨c', x2, x3⟩
  · exact absurd hc (y1 hs c)

/-- **C95** False in full: of a condition that is an operation, only the name of the operator is drawn, whatever its operands. -/
theorem C95_label_operator (o : Op) (ns : List DF) : condLabel false (some (.op o ns)) = .ok o.pyName := rfl

/-- **C95** Of a condition that is a signal, its path is drawn; of none, the text None. -/
theorem C95_label_signal (n : ScopeChain) : condLabel false (some (.term n)) = .ok (dotJoin (n.map ScopeLabel.repr)) ∧
    condLabel false none = .ok "None".toList := ⟨rfl, rfl⟩

/-- **C95** With nolabel, all labels are empty. -/
theorem C95_nolabel (m : Fsm) (g : FsmGraph) (h : m.tograph true = .ok g) (a b : Int) (l : Str)
    (hl : g.edges.get? (intStr a, intStr b) = some l) : l = [] := by
  obtain ⟨c, _, hc⟩ := C95_labels true m g h a b l hl
  simpa [condLabel] using hc.symm

/-- **C95** Machines whose conditions are drawn alike have the same picture. -/
theorem C95_same_picture (m n : Fsm) (h : m.Alike n) : m.tograph false = n.tograph false := by
  obtain ⟨h1, h2⟩ := h
  have hs : ∀ {ms ns : List (Int × DstDict)}, List.Forall₂ (fun p q => p.1 = q.1 ∧ DstAlike p.2 q.2) ms ns →
      ∀ g, drawStates false ms g = drawStates false ns g := by
    intro ms ns h
    induction h with
    | nil => intro g; rfl
    | cons h _ ih =>
      rename_i p q _ _ _
      obtain ⟨s, dd⟩ := p
      obtain ⟨s', ee⟩ := q
      intro g
      obtain ⟨rfl, h⟩ := h
      simp only [drawStates, drawDst_alike h]
      congr 1
      funext g'
      exact ih _
  have hk : ∀ {ms ns : List (Int × DstDict)}, List.Forall₂ (fun p q => p.1 = q.1 ∧ DstAlike p.2 q.2) ms ns → ms.map (·.1) = ns.map (·.1) := by
    intro ms ns h
    induction h with
    | nil => rfl
    | cons h _ ih => simp [h.1, ih]
  have ha : ∀ ss g, drawAny false m.any ss g = drawAny false n.any ss g := by
    intro ss
    induction ss with
    | nil => intro g; rfl
    | cons s ss ih =>
      intro g
      simp only [drawAny, drawDst_alike h2]
      congr 1
      funext g'
      exact ih _
  simp only [Fsm.tograph, hs h1, hk h1, ha]

/-! ### Non-vacuity -/

def c95a : DF := .op .eq [.term c23d, .evi 1 (some 32)]
def c95b : DF := .op .eq [.term c23s, .evi 0 (some 32)]
/-- Two states, and a reset-like transition to 0. -/
def c95m (c : DF) : Fsm := { fsm := [(0, [(some c, 1)]), (1, [(none, 0)])], any := [(some (.term c23d), 0)] }

example : (c95m c95a).tograph false = .ok ⟨[(['0'], ['0']), (['1'], ['1'])],
    [((['0'], ['1']), "Eq".toList), ((['1'], ['0']), ['d']), ((['0'], ['0']), ['d'])]⟩ := by decide +kernel

/-- The machines go from 0 to 1 under different conditions, and have the same picture. -/
theorem C95_same_picture_witness : (c95m c95a).tograph false = (c95m c95b).tograph false ∧ c95a ≠ c95b :=
  ⟨C95_same_picture _ _ ⟨.cons ⟨rfl, .cons ⟨rfl, rfl⟩ .nil⟩ (.cons ⟨rfl, .cons ⟨rfl, rfl⟩ .nil⟩ .nil), .cons ⟨rfl, rfl⟩ .nil⟩, by decide⟩

/-- What C95_labels_resolved_partial asks for. -/
example : ∃ m g, ({ fsm := [(0, [(some c95a, 1), (some c95b, 1)])] } : Fsm).resolve .ok = .ok m ∧ m.any = [] ∧ m.tograph false = .ok g ∧
    m.Goes 0 (some (.op .lor [c95a, c95b])) 1 ∧ g.edges.get? (intStr 0, intStr 1) = some "Lor".toList := by
  refine ⟨{ fsm := [(0, [(some (.op .lor [c95a, c95b]), 1)])] }, _, rfl, rfl, rfl, .inl ⟨_, List.mem_cons_self .., List.mem_cons_self ..⟩, ?_⟩
  decide +kernel

end Pyv
