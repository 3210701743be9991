import Verif.Props.RangeProps
/-
  C23: the states inferred from a list of conditions contain every state in which the conditions hold.
-/
namespace Pyv

/-! ### Specification -/

/-- State `v` belongs to an inferred result. -/
def InSN (ρ : Env) (v : Int) : SN → Prop
  | .one n => InNode ρ v n
  | .many ns => ∃ n ∈ ns, InNode ρ v n

/-- The state register `name` has, under the valuation, the value `v`, which fits its width. -/
def StateIs (ρ : Env) (name : ScopeChain) (width : Nat) (v : Int) : Prop :=
  (∃ w, ρ.sig name = some (v, w)) ∧ 0 ≤ v ∧ v ≤ 2 ^ width - 1

/-- The condition has a value. -/
def Defined (ρ : Env) (c : DF) : Prop := ∃ x, sem ρ c = some x

/-- The comparison is not one of the state register being less than a number that is not positive. -/
def StrictOK (name : ScopeChain) (o : Op) (l r : DF) : Prop :=
  (∀ c w a b, o = .lessThan → l = .term name → r = .ev (.int c) w a b → 0 < c) ∧
  (∀ c w a b, o = .greaterThan → r = .term name → l = .ev (.int c) w a b → 0 < c)

/-- The conditions for which the code's reading agrees with their value.  The flag says whether the states inferred
must contain those in which the condition holds (`true`), or be contained in them (`false`, needed below a negation).
* signals have a value that is not negative, other atoms have a value;
* `~x`, `&` and the reductions are used as if they were logical operators;
* a negated negation can be satisfied at all. -/
def Readable (name : ScopeChain) (width : Nat) : DF → Env → Bool → Prop
  | .op o [x], ρ, p =>
    if o = .ulnot ∨ o = .unot then
      (o = .unot → (Holds ρ (.op o [x]) ↔ ¬ Holds ρ x)) ∧ Readable name width x ρ (!p) ∧
      (p = false → ∃ ρ' v', StateIs ρ' name width v' ∧ Readable name width x ρ' false ∧
        (o = .unot → (Holds ρ' (.op o [x]) ↔ ¬ Holds ρ' x)) ∧ Holds ρ' (.op o [x]))
    else Readable name width x ρ p ∧ Defined ρ (.op o [x]) ∧ (Holds ρ (.op o [x]) ↔ Holds ρ x)
  | .op o [l, r], ρ, p =>
    if o.nonCondition then Defined ρ (.op o [l, r])
    else if o = .or ∨ o = .lor then Readable name width l ρ p ∧ Readable name width r ρ p
    else if o = .and ∨ o = .land then
      Readable name width l ρ p ∧ Readable name width r ρ p ∧
        (o = .and → (Holds ρ (.op o [l, r]) ↔ Holds ρ l ∧ Holds ρ r))
    else Defined ρ (.op o [l, r]) ∧ (p = false → StrictOK name o l r)
  | .term n, ρ, _ => ∃ a w, ρ.sig n = some (a, w) ∧ 0 ≤ a
  | c, ρ, _ => Defined ρ c

/-! ### Lemmas: nodes -/

/-- A condition that is present and not a negation. -/
def BaseTC : DF → Prop
  | .none => False
  | .op .ulnot _ => False
  | .op .unot _ => False
  | _ => True

/-- The transition conditions that occur: at most one negation. -/
def TCok (t : DF) : Prop := BaseTC t ∨ ∃ x, t = .op .ulnot [x] ∧ BaseTC x

/-- Invariant of the state nodes (without reference to a valuation). -/
def NodeWF (width : Nat) (n : SNode) : Prop :=
  n.minv = 0 ∧ n.maxv = maxVal width ∧ (n.isany = true → n.tc ≠ none) ∧ ∀ t, n.tc = some t → TCok t

/-- Invariant of the state nodes. -/
def NodeOK (ρ : Env) (width : Nat) (n : SNode) : Prop := NodeWF width n ∧ ∀ t, n.tc = some t → Defined ρ t

def SNWF (width : Nat) : SN → Prop
  | .one n => NodeWF width n
  | .many ns => ns ≠ [] ∧ ∀ n ∈ ns, NodeWF width n

def SNOK (ρ : Env) (width : Nat) : SN → Prop
  | .one n => NodeOK ρ width n
  | .many ns => ns ≠ [] ∧ ∀ n ∈ ns, NodeOK ρ width n

theorem defined_not {ρ : Env} {c : DF} (h : Defined ρ c) : Defined ρ (.op .ulnot [c]) := by
  obtain ⟨x, hx⟩ := h
  exact ⟨_, by simp only [sem, semList, hx]; rfl⟩

theorem holds_not_iff {ρ : Env} {c : DF} (h : Defined ρ c) : Holds ρ (.op .ulnot [c]) ↔ ¬ Holds ρ c := by
  rw [holds_not]
  obtain ⟨x, hx⟩ := h
  simp [Holds, hx]

theorem TCok.ne_none {t : DF} (h : TCok t) : t ≠ .none := by
  rcases h with h | ⟨x, rfl, _⟩
  · rintro rfl; exact h
  · simp

theorem notTranscond_spec {t : DF} (h : TCok t) : ∃ r, notTranscond (some t) = .ok (some r) ∧ TCok r ∧
    ∀ ρ, Defined ρ t → Defined ρ r ∧ (Holds ρ r ↔ ¬ Holds ρ t) := by
  rcases h with h | ⟨x, rfl, hx⟩
  · have key : notTranscond (some t) = .ok (some (.op .ulnot [t])) := by
      unfold notTranscond
      split <;> simp_all [BaseTC]
      rename_i heq
      subst heq
      have : DF.none ≠ t := by rintro rfl; exact h
      simp [DF.mkOp, this]
      rfl
    exact ⟨_, key, .inr ⟨t, rfl, h⟩, fun ρ hd => ⟨defined_not hd, holds_not_iff hd⟩⟩
  · refine ⟨x, rfl, .inl hx, fun ρ hd => ?_⟩
    have hd' : Defined ρ x := by
      obtain ⟨y, hy⟩ := hd
      simp only [sem, semList] at hy
      cases h : sem ρ x with
      | none => simp [h] at hy
      | some z => exact ⟨z, h⟩
    exact ⟨hd', by rw [holds_not_iff hd']; simp⟩

theorem notStateNode_spec {width : Nat} {n : SNode} (h : NodeWF width n) :
    ∃ sn, notStateNode n = .ok sn ∧ SNWF width sn ∧ ∀ ρ v, NodeOK ρ width n → 0 ≤ v → v ≤ maxVal width →
      SNOK ρ width sn ∧ (InSN ρ v sn ↔ ¬ InNode ρ v n) := by
  obtain ⟨h1, h2, h3, h4⟩ := h
  unfold notStateNode
  cases ha : n.isany with
  | true =>
    simp only [if_true]
    cases ht : n.tc with
    | none => exact absurd ht (h3 ha)
    | some t =>
      obtain ⟨r, hr, hr1, hr2⟩ := notTranscond_spec (h4 t ht)
      rw [hr]
      have wf : NodeWF width { maxv := n.maxv, tc := some r, isany := true } :=
        ⟨rfl, h2, by simp, by intro t e; simp at e; subst e; exact hr1⟩
      refine ⟨_, rfl, wf, ?_⟩
      intro ρ v hok _ _
      obtain ⟨hd, hh⟩ := hr2 ρ (hok.2 t ht)
      refine ⟨⟨wf, by intro t e; simp at e; subst e; exact hd⟩, ?_⟩
      simp [InSN, InNode, ha, ht, hh]
  | false =>
    simp only [Bool.false_eq_true, if_false]
    cases ht : n.tc with
    | none =>
      have wf : NodeWF width { ranges := notRangePairs n, maxv := n.maxv } := ⟨rfl, h2, by simp, by simp⟩
      refine ⟨_, rfl, wf, ?_⟩
      intro ρ v hok hv1 hv2
      refine ⟨⟨wf, by simp⟩, ?_⟩
      have := C20_complement n v (by rw [h1]; exact hv1) (by rw [h2]; exact hv2)
      simp [InSN, InNode, ha, ht, this]
    | some t =>
      obtain ⟨r, hr, hr1, hr2⟩ := notTranscond_spec (h4 t ht)
      simp only [hr]
      have wf1 : NodeWF width { ranges := notRangePairs n, maxv := n.maxv } := ⟨rfl, h2, by simp, by simp⟩
      have wf2 : NodeWF width { ranges := n.ranges, tc := some r, maxv := n.maxv } :=
        ⟨rfl, h2, by simp, by intro t e; simp at e; subst e; exact hr1⟩
      refine ⟨_, rfl, ⟨by simp, ?_⟩, ?_⟩
      · intro m hm
        rcases List.mem_cons.mp hm with rfl | hm
        · exact wf1
        · simp at hm; subst hm; exact wf2
      · intro ρ v hok hv1 hv2
        obtain ⟨hd, hh⟩ := hr2 ρ (hok.2 t ht)
        refine ⟨⟨by simp, ?_⟩, ?_⟩
        · intro m hm
          rcases List.mem_cons.mp hm with rfl | hm
          · exact ⟨wf1, by simp⟩
          · simp at hm; subst hm; exact ⟨wf2, by intro t e; simp at e; subst e; exact hd⟩
        · have := C20_complement n v (by rw [h1]; exact hv1) (by rw [h2]; exact hv2)
          simp only [InSN, InNode, List.mem_cons, List.not_mem_nil, or_false, exists_eq_or_imp, exists_eq_left,
            Bool.false_eq_true, false_or, this, ha, ht, Option.some.injEq, forall_eq', hh, reduceCtorEq,
            IsEmpty.forall_iff, implies_true, and_true]
          tauto

theorem andStateNode_ok {width : Nat} {a b : SNode} (ha : NodeWF width a) (hb : NodeWF width b) :
    ∃ r, andStateNode a b = .ok r :=
  C21_conjunction_total a b (by intro h; exact (ha.2.2.2 _ h).ne_none rfl) (by intro h; exact (hb.2.2.2 _ h).ne_none rfl)

theorem andTranscond_inv {a b r : Option DF} (h : andTranscond a b = .ok r) :
    (∀ t, r = some t → a = some t ∨ b = some t ∨ ∃ x y, a = some x ∧ b = some y ∧ t = .op .land [x, y]) ∧
    (r = none → a = none ∧ b = none) := by
  rcases a with _ | a <;> rcases b with _ | b <;> simp only [andTranscond, bind_ok, ok_inj] at h
  · subst h; simp
  · subst h; simp
  · subst h; simp
  · obtain ⟨x, hx, rfl⟩ := h
    simp only [DF.mkOp] at hx
    split at hx
    · simp at hx
    · simp at hx; subst hx; simp

theorem defined_land {ρ : Env} {a b : DF} (ha : Defined ρ a) (hb : Defined ρ b) : Defined ρ (.op .land [a, b]) := by
  obtain ⟨x, hx⟩ := ha
  obtain ⟨y, hy⟩ := hb
  exact ⟨_, by simp only [sem, semList, hx, hy]; rfl⟩

theorem andStateNode_wf {width : Nat} {a b n : SNode} (ha : NodeWF width a) (hb : NodeWF width b)
    (h : andStateNode a b = .ok (some n)) :
    NodeWF width n ∧ ∀ ρ, NodeOK ρ width a → NodeOK ρ width b → NodeOK ρ width n := by
  unfold andStateNode at h
  have hany : (andRanges a b).1 = true → a.isany = true ∧ b.isany = true := by
    unfold andRanges
    split
    · simp_all
    · split
      · simp
      · split
        · simp
        · split <;> simp
  generalize andRanges a b = x at h hany
  obtain ⟨isany, ranges⟩ := x
  simp only at h hany
  split at h
  · simp at h
  · simp only [bind_ok, ok_inj, Option.some.injEq] at h
    obtain ⟨tc, htc, rfl⟩ := h
    obtain ⟨i1, i2⟩ := andTranscond_inv htc
    have wf : NodeWF width { ranges := ranges, maxv := max a.maxv b.maxv, tc := tc, isany := isany } := by
      refine ⟨rfl, ?_, ?_, ?_⟩
      · simp only [ha.2.1, hb.2.1]; exact Int.max_self _
      · intro e e'
        exact ha.2.2.1 (hany e).1 (i2 e').1
      · intro t e
        rcases i1 t e with h | h | ⟨x, y, h1, h2, rfl⟩
        · exact ha.2.2.2 t h
        · exact hb.2.2.2 t h
        · exact .inl trivial
    refine ⟨wf, fun ρ hA hB => ⟨wf, ?_⟩⟩
    intro t e
    rcases i1 t e with h | h | ⟨x, y, h1, h2, rfl⟩
    · exact hA.2 t h
    · exact hB.2 t h
    · exact defined_land (hA.2 x h1) (hB.2 y h2)

theorem andProduct_spec {width : Nat} {ps : List (SNode × SNode)} (h : ∀ p ∈ ps, NodeWF width p.1 ∧ NodeWF width p.2) :
    ∃ vs, andProduct ps = .ok vs ∧ (∀ n ∈ vs, NodeWF width n) ∧
      ∀ ρ v, (∀ p ∈ ps, NodeOK ρ width p.1 ∧ NodeOK ρ width p.2) → (∀ n ∈ vs, NodeOK ρ width n) ∧
        ((∃ n ∈ vs, InNode ρ v n) ↔ ∃ p ∈ ps, InNode ρ v p.1 ∧ InNode ρ v p.2) := by
  induction ps with
  | nil => exact ⟨[], rfl, by simp, by simp⟩
  | cons p ps ih =>
    obtain ⟨l, r⟩ := p
    obtain ⟨vs, hvs, hwf, hsp⟩ := ih (fun p hp => h p (by simp [hp]))
    obtain ⟨hl, hr⟩ := h (l, r) (by simp)
    obtain ⟨x, hx⟩ := andStateNode_ok hl hr
    simp only [andProduct, hx, hvs]
    cases x with
    | none =>
      refine ⟨vs, rfl, hwf, ?_⟩
      intro ρ v hok
      obtain ⟨h1, h2⟩ := hsp ρ v (fun p hp => hok p (by simp [hp]))
      refine ⟨h1, ?_⟩
      rw [h2]
      have := C21_conjunction_exact ρ l r _ hx v
      simp at this
      constructor
      · rintro ⟨p, hp, h⟩; exact ⟨p, by simp [hp], h⟩
      · rintro ⟨p, hp, h3, h4⟩
        rcases List.mem_cons.mp hp with rfl | hp
        · exact absurd h4 (this h3)
        · exact ⟨p, hp, h3, h4⟩
    | some n =>
      obtain ⟨w1, w2⟩ := andStateNode_wf hl hr hx
      refine ⟨n :: vs, rfl, ?_, ?_⟩
      · intro m hm
        rcases List.mem_cons.mp hm with rfl | hm
        · exact w1
        · exact hwf m hm
      · intro ρ v hok
        obtain ⟨h1, h2⟩ := hsp ρ v (fun p hp => hok p (by simp [hp]))
        have hk := hok (l, r) (by simp)
        have := C21_conjunction_exact ρ l r _ hx v
        simp only [Option.some.injEq, exists_eq_left'] at this
        refine ⟨?_, ?_⟩
        · intro m hm
          rcases List.mem_cons.mp hm with rfl | hm
          · exact w2 ρ hk.1 hk.2
          · exact h1 m hm
        · simp only [List.mem_cons, exists_eq_or_imp, this, h2]

theorem mem_allPairs {ls rs : List SNode} {p : SNode × SNode} : p ∈ allPairs ls rs ↔ p.1 ∈ ls ∧ p.2 ∈ rs := by
  obtain ⟨a, b⟩ := p
  simp [allPairs]

def nodesOf : SN → List SNode
  | .one n => [n]
  | .many ns => ns

theorem inSN_nodes {ρ v sn} : InSN ρ v sn ↔ ∃ n ∈ nodesOf sn, InNode ρ v n := by
  cases sn <;> simp [InSN, nodesOf]

theorem SNWF.nodes {width sn} (h : SNWF width sn) : ∀ n ∈ nodesOf sn, NodeWF width n := by
  cases sn with
  | one n => simp only [nodesOf, List.mem_singleton, forall_eq]; exact h
  | many ns => exact h.2

theorem SNOK.nodes {ρ width sn} (h : SNOK ρ width sn) : ∀ n ∈ nodesOf sn, NodeOK ρ width n := by
  cases sn with
  | one n => simp only [nodesOf, List.mem_singleton, forall_eq]; exact h
  | many ns => exact h.2

theorem SNOK.wf {ρ width sn} (h : SNOK ρ width sn) : SNWF width sn := by
  cases sn with
  | one n => exact h.1
  | many ns => exact ⟨h.1, fun n hn => (h.2 n hn).1⟩

theorem manyOpt_spec {width : Nat} {vs : List SNode} (h : ∀ n ∈ vs, NodeWF width n) :
    (∀ sn, manyOpt vs = some sn → SNWF width sn) ∧
    ∀ ρ v, (∀ n ∈ vs, NodeOK ρ width n) → (∀ sn, manyOpt vs = some sn → SNOK ρ width sn) ∧
      ((∃ sn, manyOpt vs = some sn ∧ InSN ρ v sn) ↔ ∃ n ∈ vs, InNode ρ v n) := by
  cases vs with
  | nil => simp [manyOpt]
  | cons a vs =>
    simp only [manyOpt, Option.some.injEq, forall_eq', exists_eq_left', InSN]
    exact ⟨⟨by simp, h⟩, fun ρ v hok => ⟨⟨by simp, hok⟩, trivial⟩⟩

theorem andStateNodeList_spec {width : Nat} {l r : SN} (hl : SNWF width l) (hr : SNWF width r) :
    ∃ x, andStateNodeList (some l) (some r) = .ok x ∧ (∀ sn, x = some sn → SNWF width sn) ∧
      ∀ ρ v, SNOK ρ width l → SNOK ρ width r → (∀ sn, x = some sn → SNOK ρ width sn) ∧
        ((∃ sn, x = some sn ∧ InSN ρ v sn) ↔ InSN ρ v l ∧ InSN ρ v r) := by
  have gen : ∃ vs, andProduct (allPairs (nodesOf l) (nodesOf r)) = .ok vs ∧
      (∀ sn, manyOpt vs = some sn → SNWF width sn) ∧
      ∀ ρ v, SNOK ρ width l → SNOK ρ width r → (∀ sn, manyOpt vs = some sn → SNOK ρ width sn) ∧
        ((∃ sn, manyOpt vs = some sn ∧ InSN ρ v sn) ↔ InSN ρ v l ∧ InSN ρ v r) := by
    obtain ⟨vs, h1, h2, h3⟩ := andProduct_spec (width := width) (ps := allPairs (nodesOf l) (nodesOf r))
      (fun p hp => ⟨hl.nodes _ (mem_allPairs.mp hp).1, hr.nodes _ (mem_allPairs.mp hp).2⟩)
    refine ⟨vs, h1, (manyOpt_spec h2).1, ?_⟩
    intro ρ v hlo hro
    obtain ⟨h4, h5⟩ := h3 ρ v (fun p hp => ⟨hlo.nodes _ (mem_allPairs.mp hp).1, hro.nodes _ (mem_allPairs.mp hp).2⟩)
    obtain ⟨h6, h7⟩ := (manyOpt_spec h2).2 ρ v h4
    refine ⟨h6, ?_⟩
    rw [h7, h5, inSN_nodes, inSN_nodes]
    constructor
    · rintro ⟨p, hp, ha, hb⟩
      exact ⟨⟨p.1, (mem_allPairs.mp hp).1, ha⟩, p.2, (mem_allPairs.mp hp).2, hb⟩
    · rintro ⟨⟨a, ha, ha'⟩, b, hb, hb'⟩
      exact ⟨(a, b), mem_allPairs.mpr ⟨ha, hb⟩, ha', hb'⟩
  obtain ⟨vs, g1, g2, g3⟩ := gen
  rcases l with a | ls <;> rcases r with b | rs
  · obtain ⟨x, hx⟩ := andStateNode_ok (width := width) hl hr
    refine ⟨x.map .one, by simp only [andStateNodeList, hx]; rfl, ?_, ?_⟩
    · intro sn e
      cases x with
      | none => simp at e
      | some n => simp at e; subst e; exact (andStateNode_wf (width := width) hl hr hx).1
    · intro ρ v hlo hro
      refine ⟨?_, ?_⟩
      · intro sn e
        cases x with
        | none => simp at e
        | some n => simp at e; subst e; exact (andStateNode_wf (width := width) hl hr hx).2 ρ hlo hro
      · have := C21_conjunction_exact ρ a b _ hx v
        simp only [InSN]
        rw [← this]
        cases x <;> simp [InSN]
  all_goals exact ⟨manyOpt vs, by simp only [andStateNodeList]; simp only [nodesOf] at g1; rw [g1]; rfl, g2, g3⟩

theorem orStateNodeList_spec {l r : SN} : ∃ ns, orStateNodeList (some l) (some r) = some (.many ns) ∧
    ns = nodesOf l ++ nodesOf r := by
  rcases l with a | ls <;> rcases r with b | rs <;> exact ⟨_, rfl, by simp [nodesOf]⟩

/-! ### Lemmas: negation of lists -/

/-- Without an empty intermediate result, the fold is the conjunction. -/
theorem notFold_spec {width : Nat} : ∀ (ns : List SN) (r : Option SN), (∀ x, r = some x → SNWF width x) →
    (∀ n ∈ ns, SNWF width n) →
    ∃ res, notFold r ns = .ok res ∧ (∀ x, res = some x → SNWF width x) ∧
      (∀ ρ, (∀ x, r = some x → SNOK ρ width x) → (∀ n ∈ ns, SNOK ρ width n) → ∀ x, res = some x → SNOK ρ width x) ∧
      (∀ ρ v, (∀ x, r = some x → SNOK ρ width x) → (∀ n ∈ ns, SNOK ρ width n) → (r = none → ns ≠ []) →
        (∀ x, r = some x → InSN ρ v x) → (∀ n ∈ ns, InSN ρ v n) → (∃ x, res = some x) ∧
        ∀ ρ' v', (∀ x, r = some x → SNOK ρ' width x) → (∀ n ∈ ns, SNOK ρ' width n) →
          ∀ x, res = some x → (InSN ρ' v' x ↔ (∀ y, r = some y → InSN ρ' v' y) ∧ ∀ n ∈ ns, InSN ρ' v' n)) := by
  intro ns
  induction ns with
  | nil =>
    intro r h1 _
    refine ⟨r, by cases r <;> rfl, h1, fun ρ h _ => h, ?_⟩
    intro ρ v _ _ hne _ _
    cases r with
    | none => exact absurd rfl (hne rfl)
    | some x => simp
  | cons n ns ih =>
    intro r h1 h2
    cases r with
    | none =>
      obtain ⟨res, e, w, o, s⟩ := ih (some n) (by intro x e; simp at e; subst e; exact h2 n (by simp))
        (fun m hm => h2 m (by simp [hm]))
      refine ⟨res, by simp only [notFold]; exact e, w, ?_, ?_⟩
      · intro ρ _ ho
        exact o ρ (by intro x e; simp at e; subst e; exact ho n (by simp)) (fun m hm => ho m (by simp [hm]))
      · intro ρ v _ ho _ _ hin
        obtain ⟨a, b⟩ := s ρ v (by intro x e; simp at e; subst e; exact ho n (by simp))
          (fun m hm => ho m (by simp [hm])) (by simp) (by intro x e; simp at e; subst e; exact hin n (by simp))
          (fun m hm => hin m (by simp [hm]))
        refine ⟨a, ?_⟩
        intro ρ' v' _ ho' x hx
        rw [b ρ' v' (by intro x e; simp at e; subst e; exact ho' n (by simp)) (fun m hm => ho' m (by simp [hm])) x hx]
        simp
    | some r =>
      obtain ⟨y, hy, hw, hs⟩ := andStateNodeList_spec (h1 r rfl) (h2 n (by simp))
      obtain ⟨res, e, w, o, s⟩ := ih y hw (fun m hm => h2 m (by simp [hm]))
      refine ⟨res, by simp only [notFold, hy]; exact e, w, ?_, ?_⟩
      · intro ρ hr ho
        exact o ρ ((hs ρ 0 (hr r rfl) (ho n (by simp))).1) (fun m hm => ho m (by simp [hm]))
      · intro ρ v hr ho _ hir hin
        obtain ⟨q1, q2⟩ := hs ρ v (hr r rfl) (ho n (by simp))
        obtain ⟨z, hz, hzi⟩ := q2.mpr ⟨hir r rfl, hin n (by simp)⟩
        subst hz
        obtain ⟨a, b⟩ := s ρ v q1 (fun m hm => ho m (by simp [hm])) (by simp)
          (by intro x e; simp at e; subst e; exact hzi) (fun m hm => hin m (by simp [hm]))
        refine ⟨a, ?_⟩
        intro ρ' v' hr' ho' x hx
        obtain ⟨q1', q2'⟩ := hs ρ' v' (hr' r rfl) (ho' n (by simp))
        rw [b ρ' v' q1' (fun m hm => ho' m (by simp [hm])) x hx]
        simp only [Option.some.injEq, forall_eq', exists_eq_left', List.mem_cons, forall_eq_or_imp] at q2' ⊢
        rw [q2', and_assoc]

theorem mapM_not {width : Nat} {ns : List SNode} (h : ∀ n ∈ ns, NodeWF width n) :
    ∃ xs, ns.mapM notStateNode = .ok xs ∧ xs.length = ns.length ∧ (∀ x ∈ xs, SNWF width x) ∧
      ∀ ρ v, (∀ n ∈ ns, NodeOK ρ width n) → 0 ≤ v → v ≤ maxVal width → (∀ x ∈ xs, SNOK ρ width x) ∧
        ((∀ x ∈ xs, InSN ρ v x) ↔ ¬ ∃ n ∈ ns, InNode ρ v n) := by
  induction ns with
  | nil => exact ⟨[], rfl, rfl, by simp, by simp⟩
  | cons n ns ih =>
    obtain ⟨xs, e, hl, w, s⟩ := ih (fun m hm => h m (by simp [hm]))
    obtain ⟨x, hx, hw, hs⟩ := notStateNode_spec (h n (by simp))
    refine ⟨x :: xs, by simp only [List.mapM_cons, hx, e]; rfl, by simp [hl], ?_, ?_⟩
    · intro y hy
      rcases List.mem_cons.mp hy with rfl | hy
      · exact hw
      · exact w y hy
    · intro ρ v ho h1 h2
      obtain ⟨a, b⟩ := s ρ v (fun m hm => ho m (by simp [hm])) h1 h2
      obtain ⟨c, d⟩ := hs ρ v (ho n (by simp)) h1 h2
      refine ⟨?_, ?_⟩
      · intro y hy
        rcases List.mem_cons.mp hy with rfl | hy
        · exact c
        · exact a y hy
      · simp only [List.mem_cons, forall_eq_or_imp, d, b, exists_eq_or_imp, not_or]

/-- Negation of a result: it is some result whenever the negation can be satisfied, and then exact. -/
theorem notStateNodeList_spec {width : Nat} {sn : SN} (h : SNWF width sn) :
    ∃ res, notStateNodeList (some sn) = .ok res ∧ (∀ x, res = some x → SNWF width x) ∧
      (∀ ρ, SNOK ρ width sn → ∀ x, res = some x → SNOK ρ width x) ∧
      ∀ ρ v, SNOK ρ width sn → 0 ≤ v → v ≤ maxVal width → ¬ InSN ρ v sn → (∃ x, res = some x) ∧
        ∀ ρ' v', SNOK ρ' width sn → 0 ≤ v' → v' ≤ maxVal width → ∀ x, res = some x →
          (InSN ρ' v' x ↔ ¬ InSN ρ' v' sn) := by
  cases sn with
  | one n =>
    obtain ⟨x, hx, hw, hs⟩ := notStateNode_spec (width := width) h
    refine ⟨some x, by simp only [notStateNodeList, hx]; rfl, by intro y e; simp at e; subst e; exact hw, ?_, ?_⟩
    · intro ρ ho y e
      simp at e; subst e
      have : 0 ≤ maxVal width := by
        have : (1 : Int) ≤ 2 ^ width := Int.add_one_le_of_lt (Int.pow_pos (by decide))
        unfold maxVal; omega
      exact (hs ρ 0 ho (Int.le_refl _) this).1
    · intro ρ v _ _ _ _
      refine ⟨⟨x, rfl⟩, ?_⟩
      intro ρ' v' ho h1 h2 y e
      simp at e; subst e
      exact (hs ρ' v' ho h1 h2).2
  | many ns =>
    obtain ⟨xs, e, hl, w, s⟩ := mapM_not h.2
    obtain ⟨res, er, wr, okr, sr⟩ := notFold_spec xs none (by simp) w
    refine ⟨res, by simp only [notStateNodeList, e]; exact er, wr, ?_, ?_⟩
    · intro ρ ho
      have : 0 ≤ maxVal width := by
        have : (1 : Int) ≤ 2 ^ width := Int.add_one_le_of_lt (Int.pow_pos (by decide))
        unfold maxVal; omega
      exact okr ρ (by simp) (s ρ 0 ho.2 (Int.le_refl _) this).1
    · intro ρ v ho h1 h2 hin
      obtain ⟨a, b⟩ := s ρ v ho.2 h1 h2
      have hne : xs ≠ [] := by
        intro e; subst e; simp at hl; exact h.1 (by simpa using hl.symm)
      obtain ⟨c, d⟩ := sr ρ v (by simp) a (fun _ => hne) (by simp) (b.mpr hin)
      refine ⟨c, ?_⟩
      intro ρ' v' ho' h1' h2' x hx
      obtain ⟨a', b'⟩ := s ρ' v' ho'.2 h1' h2'
      rw [d ρ' v' (by simp) a' x hx]
      simp only [reduceCtorEq, IsEmpty.forall_iff, implies_true, true_and]
      exact b'

/-! ### Lemmas: single conditions -/

theorem inferOK {width : Nat} {i : Inferred} {ρ : Env} :
    ∃ sn, createStateNode i width = .ok (some sn) ∧ SNOK ρ width sn ∧
      ∀ v, 0 ≤ v → v ≤ maxVal width → (InSN ρ v sn ↔ InInferred v i) := by
  have wf : NodeWF width { ranges := [(i.minval.getD 0, i.maxval.getD (maxVal width))], minv := 0, maxv := maxVal width } :=
    ⟨rfl, rfl, by simp, by simp⟩
  have ok : NodeOK ρ width { ranges := [(i.minval.getD 0, i.maxval.getD (maxVal width))], minv := 0, maxv := maxVal width } :=
    ⟨wf, by simp⟩
  have base : ∀ v, 0 ≤ v → v ≤ maxVal width →
      (InNode ρ v { ranges := [(i.minval.getD 0, i.maxval.getD (maxVal width))], minv := 0, maxv := maxVal width } ↔
        (∀ m, i.minval = some m → m ≤ v) ∧ (∀ m, i.maxval = some m → v ≤ m)) := by
    intro v h1 h2
    simp only [InNode, InRanges, Bool.false_eq_true, false_or, List.mem_singleton, exists_eq_left, reduceCtorEq,
      IsEmpty.forall_iff, implies_true, and_true]
    cases i.minval <;> cases i.maxval <;> simp <;> omega
  unfold createStateNode
  cases hi : i.inv with
  | false =>
    refine ⟨_, rfl, ok, ?_⟩
    intro v h1 h2
    simp only [InSN, InInferred, hi]
    exact base v h1 h2
  | true =>
    obtain ⟨x, hx, hw, hs⟩ := notStateNode_spec wf
    refine ⟨x, by simp only [if_true, notStateNodeList, hx]; rfl, ?_, ?_⟩
    · have : 0 ≤ maxVal width := by
        have : (1 : Int) ≤ 2 ^ width := Int.add_one_le_of_lt (Int.pow_pos (by decide))
        unfold maxVal; omega
      exact (hs ρ 0 ok (Int.le_refl _) this).1
    · intro v h1 h2
      rw [(hs ρ v ok h1 h2).2, base v h1 h2]
      simp [InInferred, hi]

theorem anyNode_spec {ρ : Env} {width : Nat} {c : DF} (hd : Defined ρ c) (hb : BaseTC c) :
    SNOK ρ width (anyNode c width) ∧ ∀ v, InSN ρ v (anyNode c width) ↔ Holds ρ c := by
  have : tcOf c = some c := by cases c <;> first | rfl | exact absurd hb (by simp [BaseTC])
  simp only [anyNode, this, SNOK, InSN, InNode]
  refine ⟨⟨⟨rfl, rfl, by simp, ?_⟩, ?_⟩, ?_⟩
  · intro t e; simp at e; subst e; exact .inl hb
  · intro t e; simp at e; subst e; exact hd
  · simp

theorem base_op2 {ρ : Env} {o : Op} {l r : DF} (hd : Defined ρ (.op o [l, r])) : BaseTC (.op o [l, r]) := by
  obtain ⟨x, hx⟩ := hd
  simp only [sem, semList] at hx
  cases o <;> simp only [BaseTC] <;>
    (cases h1 : sem ρ l <;> cases h2 : sem ρ r <;> simp [h1, h2, opSem] at hx)

theorem tr_sem_op2 {ρ : Env} {o : Op} {l r : DF} (x : Int × Int) (hx : sem ρ (.op o [l, r]) = some x) :
    ∃ a b n, sem ρ l = some a ∧ sem ρ r = some b ∧ opSem o [a.1, b.1] n = some x.1 := by
  simp only [sem, semList] at hx
  cases h1 : sem ρ l with
  | none => simp [h1] at hx
  | some a =>
    cases h2 : sem ρ r with
    | none => simp [h1, h2] at hx
    | some b =>
      simp only [h1, h2, Option.bind_eq_bind, Option.bind_some, List.map, Option.bind_eq_some_iff, Option.some.injEq] at hx
      obtain ⟨y, hy, rfl⟩ := hx
      exact ⟨a, b, _, rfl, rfl, hy⟩

theorem opSem_swapped {o : Op} {c w a b} {i} (ho : infer o.swapped (.ev (.int c) w a b) = .ok i) (x y : Int) (m : Nat) :
    opSem o [x, y] m = opSem o.swapped [y, x] m := by
  have e : (x = y) = (y = x) := propext eq_comm
  cases o <;> first | (simp only [Op.swapped, opSem, ne_eq, e]; done) | (simp [Op.swapped, infer] at ho; done) | rfl

theorem infer_lt {c : Int} {w a b} {i} (h : infer .lessThan (.ev (.int c) w a b) = .ok i) (hc : ¬ 0 < c) (v : Int) :
    InInferred v i := by
  simp only [infer, ok_inj] at h
  subst h
  rw [if_pos (by omega)]
  simp [InInferred]

theorem infer_const {o : Op} {n : DF} {i} (h : infer o n = .ok i) : ∃ c w a b, n = .ev (.int c) w a b := by
  unfold infer at h
  split at h
  · exact ⟨_, _, _, _, rfl⟩
  · simp at h
  · simp at h

theorem infer_op {o : Op} {c w a b} {i} (h : infer o (.ev (.int c) w a b) = .ok i) (x y : Int) (m : Nat) :
    opSem o [x, y] m = opSem o [x, y] 0 := by
  cases o <;> simp [infer] at h <;> rfl

theorem walkCompare_spec {ρ : Env} {name : ScopeChain} {width : Nat} {v : Int} (hs : StateIs ρ name width v)
    {o : Op} {l r : DF} (hd : Defined ρ (.op o [l, r])) {res : Option SN} (h : walkCompare o l r name width = .ok res) :
    ∃ sn, res = some sn ∧ SNOK ρ width sn ∧ (Holds ρ (.op o [l, r]) → InSN ρ v sn) ∧
      (StrictOK name o l r → InSN ρ v sn → Holds ρ (.op o [l, r])) := by
  obtain ⟨⟨w, hsig⟩, hv1, hv2⟩ := hs
  have hb := base_op2 hd
  have hsn : sem ρ (.term name) = some (v, w) := by simp [sem, hsig]
  unfold walkCompare at h
  split at h
  · rename_i hl
    subst hl
    simp only [bind_ok] at h
    obtain ⟨i, hi, hc⟩ := h
    obtain ⟨sn, e, ok, iff⟩ := inferOK (width := width) (i := i) (ρ := ρ)
    rw [e] at hc; simp only [ok_inj] at hc; subst hc
    obtain ⟨c, w', a, b, rfl⟩ := infer_const hi
    refine ⟨sn, rfl, ok, ?_⟩
    rw [iff v hv1 hv2]
    have hh : Holds ρ (.op o [.term name, .ev (.int c) w' a b]) ↔ ∃ x, opSem o [v, c] 0 = some x ∧ x ≠ 0 := by
      constructor
      · rintro ⟨x, hx, hx0⟩
        obtain ⟨p, q, n, h1, h2, h3⟩ := tr_sem_op2 x hx
        rw [hsn] at h1
        simp only [sem, Option.some.injEq] at h1 h2
        subst h1; subst h2
        rw [infer_op hi] at h3
        exact ⟨x.1, h3, hx0⟩
      · rintro ⟨x, hx, hx0⟩
        obtain ⟨y, hy⟩ := hd
        obtain ⟨p, q, n, h1, h2, h3⟩ := tr_sem_op2 y hy
        rw [hsn] at h1
        simp only [sem, Option.some.injEq] at h1 h2
        subst h1; subst h2
        rw [infer_op hi, hx] at h3
        simp at h3; subst h3
        exact ⟨y, hy, hx0⟩
    rw [hh]
    refine ⟨?_, ?_⟩
    · intro hx
      by_cases hlt : o = .lessThan → 0 < c
      · exact (C22_infer_partial o c w' a b i hi hlt v hv1 0).mpr hx
      · push Not at hlt
        obtain ⟨rfl, hlt⟩ := hlt
        exact infer_lt hi (by omega) v
    · intro hst hin
      exact (C22_infer_partial o c w' a b i hi (fun e => hst.1 c w' a b e rfl rfl) v hv1 0).mp hin
  · split at h
    · rename_i hr
      subst hr
      simp only [bind_ok] at h
      obtain ⟨i, hi, hc⟩ := h
      obtain ⟨sn, e, ok, iff⟩ := inferOK (width := width) (i := i) (ρ := ρ)
      rw [e] at hc; simp only [ok_inj] at hc; subst hc
      obtain ⟨c, w', a, b, rfl⟩ := infer_const hi
      refine ⟨sn, rfl, ok, ?_⟩
      rw [iff v hv1 hv2]
      have hh : Holds ρ (.op o [.ev (.int c) w' a b, .term name]) ↔ ∃ x, opSem o.swapped [v, c] 0 = some x ∧ x ≠ 0 := by
        constructor
        · rintro ⟨x, hx, hx0⟩
          obtain ⟨p, q, n, h1, h2, h3⟩ := tr_sem_op2 x hx
          rw [hsn] at h2
          simp only [sem, Option.some.injEq] at h1 h2
          subst h1; subst h2
          rw [opSem_swapped hi, infer_op hi] at h3
          exact ⟨x.1, h3, hx0⟩
        · rintro ⟨x, hx, hx0⟩
          obtain ⟨y, hy⟩ := hd
          obtain ⟨p, q, n, h1, h2, h3⟩ := tr_sem_op2 y hy
          rw [hsn] at h2
          simp only [sem, Option.some.injEq] at h1 h2
          subst h1; subst h2
          rw [opSem_swapped hi, infer_op hi, hx] at h3
          simp at h3; subst h3
          exact ⟨y, hy, hx0⟩
      rw [hh]
      refine ⟨?_, ?_⟩
      · intro hx
        by_cases hlt : o.swapped = .lessThan → 0 < c
        · exact (C22_infer_partial o.swapped c w' a b i hi hlt v hv1 0).mpr hx
        · push Not at hlt
          obtain ⟨e, hlt⟩ := hlt
          rw [e] at hi
          exact infer_lt hi (by omega) v
      · intro hst hin
        exact (C22_infer_partial o.swapped c w' a b i hi
          (fun e => hst.2 c w' a b (by revert e; cases o <;> simp [Op.swapped]) rfl rfl) v hv1 0).mp hin
    · simp only [ok_inj] at h
      subst h
      obtain ⟨h1, h2⟩ := anyNode_spec (width := width) hd hb
      exact ⟨_, rfl, h1, (h2 v).mpr, fun _ => (h2 v).mp⟩

theorem pyAnd_eq_neg_one {a b : Int} : pyAnd a b = -1 ↔ a = -1 ∧ b = -1 := by
  cases a with
  | ofNat m => cases b with
    | ofNat n => simp only [pyAnd, Int.ofNat_eq_natCast]; omega
    | negSucc n => simp only [pyAnd, Int.ofNat_eq_natCast]; omega
  | negSucc m => cases b with
    | ofNat n => simp only [pyAnd, Int.ofNat_eq_natCast]; omega
    | negSucc n =>
      simp only [pyAnd]
      have h : (m ||| n) = 0 ↔ m = 0 ∧ n = 0 := by
        constructor
        · intro h
          have h1 : m ≤ m ||| n := Nat.left_le_or
          have h2 : n ≤ m ||| n := Nat.right_le_or
          omega
        · rintro ⟨rfl, rfl⟩; rfl
      omega

theorem pyOr_eq_zero {a b : Int} : pyOr a b = 0 ↔ a = 0 ∧ b = 0 := by
  unfold pyOr pyNot
  have := @pyAnd_eq_neg_one (-a - 1) (-b - 1)
  omega

theorem defined_op2 {ρ : Env} {o : Op} {l r : DF} (ho : o = .or ∨ o = .lor ∨ o = .and ∨ o = .land) (hl : Defined ρ l)
    (hr : Defined ρ r) : Defined ρ (.op o [l, r]) := by
  obtain ⟨x, hx⟩ := hl
  obtain ⟨y, hy⟩ := hr
  rcases ho with rfl | rfl | rfl | rfl <;> exact ⟨_, by simp only [sem, semList, hx, hy]; rfl⟩

theorem holds_or {ρ : Env} {o : Op} {l r : DF} (ho : o = .or ∨ o = .lor) (hl : Defined ρ l) (hr : Defined ρ r) :
    Holds ρ (.op o [l, r]) ↔ Holds ρ l ∨ Holds ρ r := by
  obtain ⟨x, hx⟩ := hl
  obtain ⟨y, hy⟩ := hr
  have := @pyOr_eq_zero x.1 y.1
  rcases ho with rfl | rfl
  · simp [Holds, sem, semList, hx, hy, opSem, this]; tauto
  · simp [Holds, sem, semList, hx, hy, opSem, b2i]; tauto

/-- What the proof by induction carries: the result of walking `c` is well formed, contains the state when `c`
holds (`p = true`), or exists and contains it only when `c` holds (`p = false`). -/
def Reads (ρ : Env) (width : Nat) (v : Int) (c : DF) (p : Bool) (res : Option SN) : Prop :=
  Defined ρ c ∧ (∀ sn, res = some sn → SNOK ρ width sn) ∧
  (p = true → Holds ρ c → ∃ sn, res = some sn ∧ InSN ρ v sn) ∧
  (p = false → ∃ sn, res = some sn ∧ (InSN ρ v sn → Holds ρ c))

theorem reads_of_exact {ρ : Env} {width v c p} {sn : SN} (hd : Defined ρ c) (h : SNOK ρ width sn)
    (h1 : Holds ρ c → InSN ρ v sn) (h2 : p = false → InSN ρ v sn → Holds ρ c) : Reads ρ width v c p (some sn) :=
  ⟨hd, by intro x e; simp at e; subst e; exact h, fun _ hh => ⟨sn, rfl, h1 hh⟩, fun hp => ⟨sn, rfl, h2 hp⟩⟩

theorem reads_any {ρ : Env} {width v c p} (hd : Defined ρ c) (hb : BaseTC c) :
    Reads ρ width v c p (some (anyNode c width)) := by
  obtain ⟨h1, h2⟩ := anyNode_spec (width := width) hd hb
  exact reads_of_exact hd h1 (h2 v).mpr (fun _ => (h2 v).mp)

set_option maxHeartbeats 1000000 in
theorem walkCond_reads (name : ScopeChain) (width : Nat) (c : DF) : ∀ (ρ : Env) (v : Int) (p : Bool) (res : Option SN),
    StateIs ρ name width v → Readable name width c ρ p → walkCond name width c = .ok res → Reads ρ width v c p res := by
  induction c using DF.ind with
  | term n =>
    intro ρ v p res hs hr h
    simp only [walkCond] at h
    obtain ⟨a, w, ha, ha0⟩ := hr
    have hsn : sem ρ (.term n) = some (a, w) := by simp [sem, ha]
    have hd : Defined ρ (.op .greaterThan [.term n, .evi 0 (some 32)]) :=
      ⟨_, by simp only [sem, semList, ha, DF.evi]; rfl⟩
    obtain ⟨sn, rfl, h1, h2, h3⟩ := walkCompare_spec hs hd h
    have hh : Holds ρ (.op .greaterThan [.term n, .evi 0 (some 32)]) ↔ Holds ρ (.term n) := by
      have : (0 < a) ↔ a ≠ 0 := by omega
      simp [Holds, sem, semList, ha, DF.evi, opSem, b2i, this]
    rw [hh] at h2 h3
    exact reads_of_exact ⟨_, hsn⟩ h1 h2 (fun _ => h3 ⟨by simp, by simp [DF.evi]⟩)
  | op o ns ih =>
    intro ρ v p res hs hr h
    match ns, ih, hr, h with
    | [], _, hr, h =>
      obtain ⟨x, hx⟩ := hr
      simp only [sem, semList] at hx
      cases o <;> simp [opSem] at hx
    | [x], ih, hr, h =>
      have ihx := ih x (by simp)
      simp only [walkCond, bind_ok] at h
      obtain ⟨n, hn, h⟩ := h
      simp only [Readable] at hr
      by_cases ho : o = .ulnot ∨ o = .unot
      · rw [if_pos ho] at hr h
        obtain ⟨hu, hrx, hsat⟩ := hr
        have key : ∀ ρ v q, StateIs ρ name width v → Readable name width x ρ q →
            (o = .unot → (Holds ρ (.op o [x]) ↔ ¬ Holds ρ x)) →
            Reads ρ width v x q n ∧ (Holds ρ (.op o [x]) ↔ ¬ Holds ρ x) ∧ Defined ρ (.op o [x]) := by
          intro ρ v q hs hq hu
          have hR := ihx ρ v q n hs hq hn
          refine ⟨hR, ?_, ?_⟩
          · rcases ho with rfl | rfl
            · exact holds_not_iff hR.1
            · exact hu rfl
          · rcases ho with rfl | rfl
            · exact defined_not hR.1
            · obtain ⟨y, hy⟩ := hR.1
              exact ⟨_, by simp only [sem, semList, hy]; rfl⟩
        obtain ⟨hR, hnot, hdef⟩ := key ρ v (!p) hs hrx hu
        cases p with
        | true =>
          obtain ⟨sn, rfl, hsn⟩ := hR.2.2.2 rfl
          have hok := hR.2.1 sn rfl
          obtain ⟨res', e, _, ok', sp⟩ := notStateNodeList_spec hok.wf
          rw [e] at h; simp only [ok_inj] at h; subst h
          refine ⟨hdef, ok' ρ hok, ?_, by simp⟩
          intro _ hh
          have hnin : ¬ InSN ρ v sn := fun hin => (hnot.mp hh) (hsn hin)
          obtain ⟨⟨y, rfl⟩, hy⟩ := sp ρ v hok hs.2.1 hs.2.2 hnin
          exact ⟨y, rfl, (hy ρ v hok hs.2.1 hs.2.2 y rfl).mpr hnin⟩
        | false =>
          obtain ⟨ρ', v', hs', hr', hu', hh'⟩ := hsat rfl
          obtain ⟨hR', hnot', _⟩ := key ρ' v' false hs' hr' hu'
          obtain ⟨sn, rfl, hsn⟩ := hR'.2.2.2 rfl
          have hok := hR.2.1 sn rfl
          have hok' := hR'.2.1 sn rfl
          obtain ⟨res', e, _, okr, sp⟩ := notStateNodeList_spec hok.wf
          rw [e] at h; simp only [ok_inj] at h; subst h
          have hnin : ¬ InSN ρ' v' sn := fun hin => (hnot'.mp hh') (hsn hin)
          obtain ⟨⟨y, rfl⟩, hy⟩ := sp ρ' v' hok' hs'.2.1 hs'.2.2 hnin
          refine ⟨hdef, okr ρ hok, by simp, ?_⟩
          intro _
          refine ⟨y, rfl, ?_⟩
          intro hin
          rw [hnot]
          intro hx
          obtain ⟨sn', e', hin'⟩ := hR.2.2.1 rfl hx
          simp at e'; subst e'
          exact (hy ρ v hok hs.2.1 hs.2.2 y rfl).mp hin hin'
      · rw [if_neg ho] at hr h
        simp only [ok_inj] at h
        subst h
        obtain ⟨hrx, hdef, hiff⟩ := hr
        obtain ⟨h1, h2, h3, h4⟩ := ihx ρ v p n hs hrx hn
        refine ⟨hdef, h2, ?_, ?_⟩
        · rw [hiff]; exact h3
        · rw [hiff]; exact h4
    | [l, r], ih, hr, h =>
      have ihl := ih l (by simp)
      have ihr := ih r (by simp)
      simp only [Readable] at hr
      simp only [walkCond] at h
      by_cases hnc : o.nonCondition = true
      · rw [if_pos hnc] at hr h
        simp only [ok_inj] at h; subst h
        exact reads_any hr (base_op2 hr)
      · rw [if_neg hnc] at hr h
        by_cases hor : o = .or ∨ o = .lor
        · rw [if_pos hor] at hr h
          simp only [bind_ok] at h
          obtain ⟨ln, hln, rn, hrn, h⟩ := h
          obtain ⟨dl, okl, al, bl⟩ := ihl ρ v p ln hs hr.1 hln
          obtain ⟨dr, okr, ar, br⟩ := ihr ρ v p rn hs hr.2 hrn
          have hd : Defined ρ (.op o [l, r]) := defined_op2 (hor.elim .inl (fun h => .inr (.inl h))) dl dr
          have hh := holds_or hor dl dr
          have fall : walkCompare o l r name width = .ok res → Reads ρ width v (.op o [l, r]) p res := by
            intro h
            obtain ⟨sn, rfl, h1, h2, h3⟩ := walkCompare_spec hs hd h
            exact reads_of_exact hd h1 h2 (fun _ => h3 (by rcases hor with rfl | rfl <;> exact ⟨by simp, by simp⟩))
          rcases ln with _ | a
          · exact fall h
          · rcases rn with _ | b
            · cases a <;> exact fall h
            · obtain ⟨ns, e, rfl⟩ := @orStateNodeList_spec a b
              rw [e] at h
              simp only [ok_inj] at h; subst h
              have hin : InSN ρ v (.many (nodesOf a ++ nodesOf b)) ↔ InSN ρ v a ∨ InSN ρ v b := by
                rw [inSN_nodes (sn := a), inSN_nodes (sn := b)]
                simp only [InSN, List.mem_append]
                constructor
                · rintro ⟨n, hn | hn, h⟩
                  · exact .inl ⟨n, hn, h⟩
                  · exact .inr ⟨n, hn, h⟩
                · rintro (⟨n, hn, h⟩ | ⟨n, hn, h⟩)
                  · exact ⟨n, .inl hn, h⟩
                  · exact ⟨n, .inr hn, h⟩
              refine ⟨hd, ?_, ?_, ?_⟩
              · intro sn e'; simp at e'; subst e'
                refine ⟨?_, ?_⟩
                · have := okl a rfl
                  cases a with
                  | one n => simp [nodesOf]
                  | many ns => simp [nodesOf, this.1]
                · intro n hn
                  rcases List.mem_append.mp hn with hn | hn
                  · exact (okl a rfl).nodes n hn
                  · exact (okr b rfl).nodes n hn
              · intro hp hH
                refine ⟨_, rfl, hin.mpr ?_⟩
                rcases hh.mp hH with h1 | h1
                · obtain ⟨x, e, hx⟩ := al hp h1; simp at e; subst e; exact .inl hx
                · obtain ⟨x, e, hx⟩ := ar hp h1; simp at e; subst e; exact .inr hx
              · intro hp
                refine ⟨_, rfl, ?_⟩
                rw [hin, hh]
                obtain ⟨x, e, hx⟩ := bl hp; simp at e; subst e
                obtain ⟨y, e, hy⟩ := br hp; simp at e; subst e
                rintro (h1 | h1)
                · exact .inl (hx h1)
                · exact .inr (hy h1)
        · rw [if_neg hor] at hr h
          by_cases hand : o = .and ∨ o = .land
          · rw [if_pos hand] at hr h
            simp only [bind_ok] at h
            obtain ⟨ln, hln, rn, hrn, x, hx, h⟩ := h
            obtain ⟨dl, okl, al, bl⟩ := ihl ρ v p ln hs hr.1 hln
            obtain ⟨dr, okr, ar, br⟩ := ihr ρ v p rn hs hr.2.1 hrn
            have hd : Defined ρ (.op o [l, r]) := defined_op2 (.inr (.inr hand)) dl dr
            have hh : Holds ρ (.op o [l, r]) ↔ Holds ρ l ∧ Holds ρ r := by
              rcases hand with rfl | rfl
              · exact hr.2.2 rfl
              · exact holds_land
            have fall : walkCompare o l r name width = .ok res → Reads ρ width v (.op o [l, r]) p res := by
              intro h
              obtain ⟨sn, rfl, h1, h2, h3⟩ := walkCompare_spec hs hd h
              exact reads_of_exact hd h1 h2 (fun _ => h3 (by rcases hand with rfl | rfl <;> exact ⟨by simp, by simp⟩))
            have okx : ∀ sn, x = some sn → SNOK ρ width sn := by
              intro sn e
              rcases ln with _ | a <;> rcases rn with _ | b
              · simp [andStateNodeList] at hx; subst hx; simp at e
              · simp [andStateNodeList] at hx; subst hx; exact okr sn e
              · simp [andStateNodeList] at hx; subst hx; exact okl sn e
              · obtain ⟨x', ex, _, sp⟩ := andStateNodeList_spec (okl a rfl).wf (okr b rfl).wf
                rw [ex] at hx; simp only [ok_inj] at hx; subst hx
                exact (sp ρ v (okl a rfl) (okr b rfl)).1 sn e
            have over : p = true → Holds ρ (.op o [l, r]) → ∃ sn, x = some sn ∧ InSN ρ v sn := by
              intro hp hH
              obtain ⟨h1, h2⟩ := hh.mp hH
              obtain ⟨a, rfl, ha⟩ := al hp h1
              obtain ⟨b, rfl, hb⟩ := ar hp h2
              obtain ⟨x', ex, _, sp⟩ := andStateNodeList_spec (okl a rfl).wf (okr b rfl).wf
              rw [ex] at hx; simp only [ok_inj] at hx; subst hx
              exact (sp ρ v (okl a rfl) (okr b rfl)).2.mpr ⟨ha, hb⟩
            have under : p = false → ∀ sn, x = some sn → InSN ρ v sn → Holds ρ (.op o [l, r]) := by
              intro hp sn e hin
              obtain ⟨a, rfl, ha⟩ := bl hp
              obtain ⟨b, rfl, hb⟩ := br hp
              obtain ⟨x', ex, _, sp⟩ := andStateNodeList_spec (okl a rfl).wf (okr b rfl).wf
              rw [ex] at hx; simp only [ok_inj] at hx; subst hx
              obtain ⟨h1, h2⟩ := (sp ρ v (okl a rfl) (okr b rfl)).2.mp ⟨sn, e, hin⟩
              exact hh.mpr ⟨ha h1, hb h2⟩
            cases x with
            | none => exact fall h
            | some y =>
              simp only [ok_inj] at h; subst h
              exact ⟨hd, okx, over, fun hp => ⟨y, rfl, under hp y rfl⟩⟩
          · rw [if_neg hand] at hr h
            obtain ⟨sn, rfl, h1, h2, h3⟩ := walkCompare_spec hs hr.1 h
            exact reads_of_exact hr.1 h1 h2 (fun hp => h3 (hr.2 hp))
    | a :: b :: c :: ns, _, hr, h =>
      obtain ⟨x, hx⟩ := hr
      simp only [sem] at hx
      cases hl : semList ρ (a :: b :: c :: ns) with
      | none => simp [hl] at hx
      | some xs =>
        have : 3 ≤ xs.length := by
          simp only [semList, Option.bind_eq_bind, Option.bind_eq_some_iff, Option.some.injEq] at hl
          obtain ⟨_, _, _, ⟨_, _, _, ⟨_, _, _, _, rfl⟩, rfl⟩, rfl⟩ := hl
          simp
        match xs, this with
        | u :: v :: w :: xs, _ => cases o <;> simp [hl, opSem] at hx
  | none => intro ρ v p res hs hr h; obtain ⟨x, hx⟩ := hr; simp [sem] at hx
  | _ =>
    intro ρ v p res hs hr h
    simp only [walkCond, ok_inj] at h; subst h
    exact reads_any hr trivial

/-! ### C23 -/

theorem walkCondLoop_eq {name : ScopeChain} {width : Nat} {Q : DF → SN → Prop} : ∀ (cs : List DF) (node res : Option SN),
    walkCondLoop name width node cs = .ok res →
    (∀ c ∈ cs, ∀ r, walkCond name width c = .ok r → ∃ x, r = some x ∧ Q c x) →
    ∃ xs, List.Forall₂ (fun c x => walkCond name width c = .ok (some x) ∧ Q c x) cs xs ∧ notFold node xs = .ok res := by
  intro cs
  induction cs with
  | nil => intro node res h _; exact ⟨[], .nil, by cases node <;> exact h⟩
  | cons c cs ih =>
    intro node res h hq
    simp only [walkCondLoop, bind_ok] at h
    obtain ⟨r, hr, h⟩ := h
    obtain ⟨x, rfl, hx⟩ := hq c (by simp) r hr
    cases node with
    | none =>
      simp only at h
      obtain ⟨xs, f, e⟩ := ih _ _ h (fun c hc => hq c (by simp [hc]))
      exact ⟨x :: xs, .cons ⟨hr, hx⟩ f, e⟩
    | some n =>
      simp only [bind_ok] at h
      obtain ⟨y, hy, h⟩ := h
      obtain ⟨xs, f, e⟩ := ih _ _ h (fun c hc => hq c (by simp [hc]))
      exact ⟨x :: xs, .cons ⟨hr, hx⟩ f, by simp only [notFold, hy]; exact e⟩

theorem forall₂_mem_right {α β : Type} {R : α → β → Prop} {l : List α} {m : List β} (h : List.Forall₂ R l m) :
    ∀ y ∈ m, ∃ x ∈ l, R x y := by
  induction h with
  | nil => simp
  | cons h _ ih =>
    intro y hy
    rcases List.mem_cons.mp hy with rfl | hy
    · exact ⟨_, by simp, h⟩
    · obtain ⟨x, hx, hr⟩ := ih y hy
      exact ⟨x, by simp [hx], hr⟩

theorem forall₂_mem_left {α β : Type} {R : α → β → Prop} {l : List α} {m : List β} (h : List.Forall₂ R l m) :
    ∀ x ∈ l, ∃ y ∈ m, R x y := by
  induction h with
  | nil => simp
  | cons h _ ih =>
    intro y hy
    rcases List.mem_cons.mp hy with rfl | hy
    · exact ⟨_, by simp, h⟩
    · obtain ⟨x, hx, hr⟩ := ih y hy
      exact ⟨x, by simp [hx], hr⟩

/-- **C23** If all conditions of the list hold while the state register holds `v`, then `walkCondlist` reports a
result and `v` is in it (with a transition condition that holds), when the conditions are `Readable`.  Missing,
because the code differs: a doubly negated condition that cannot be satisfied
(`C23_double_negation_false`), and `~` and the reductions used on several bits (`C23_bitwise_not_false`,
`C23_reduction_false`). -/
theorem C23_states_overapproximated_partial (ρ : Env) (name : ScopeChain) (width : Nat) (v : Int) (conds : List DF)
    (hs : StateIs ρ name width v) (hr : ∀ c ∈ conds, Readable name width c ρ true) (hh : AllHold ρ conds)
    (res : Option SN) (h : walkCondlist conds name width = .ok res) : ∃ sn, res = some sn ∧ InSN ρ v sn := by
  unfold walkCondlist at h
  split at h
  · simp only [ok_inj] at h; subst h
    exact ⟨_, rfl, by simp [InSN, InNode]⟩
  · rename_i hne
    obtain ⟨xs, f, e⟩ := walkCondLoop_eq (Q := fun _ x => SNOK ρ width x ∧ InSN ρ v x) conds none res h (by
      intro c hc r hcr
      have hR := walkCond_reads name width c ρ v true r hs (hr c hc) hcr
      obtain ⟨sn, rfl, hin⟩ := hR.2.2.1 rfl (hh c hc)
      exact ⟨sn, rfl, hR.2.1 sn rfl, hin⟩)
    have hx : ∀ x ∈ xs, SNOK ρ width x ∧ InSN ρ v x := by
      intro x hx
      obtain ⟨c, _, _, h⟩ := forall₂_mem_right f x hx
      exact h
    obtain ⟨res', e', _, _, sp⟩ := notFold_spec xs none (by simp) (fun x hx' => (hx x hx').1.wf)
    rw [e'] at e; simp only [ok_inj] at e; subst e
    have hxs : xs ≠ [] := by
      rintro rfl
      cases f
      exact hne rfl
    obtain ⟨⟨x, rfl⟩, hiff⟩ := sp ρ v (by simp) (fun x hx' => (hx x hx').1) (fun _ => hxs) (by simp)
      (fun x hx' => (hx x hx').2)
    exact ⟨x, rfl, (hiff ρ v (by simp) (fun x hx' => (hx x hx').1) x rfl).mpr ⟨by simp, fun x hx' => (hx x hx').2⟩⟩

/-- **C23** (precision) If the list of conditions can be satisfied at all, then the states reported are only those in
which all conditions hold (for the conditions that are `Readable` in the other direction too). -/
theorem C23_states_exact_partial (ρ : Env) (name : ScopeChain) (width : Nat) (v : Int) (conds : List DF)
    (hs : StateIs ρ name width v) (hr : ∀ c ∈ conds, Readable name width c ρ false)
    (hsat : ∃ ρ' v', StateIs ρ' name width v' ∧ (∀ c ∈ conds, Readable name width c ρ' true) ∧ AllHold ρ' conds)
    (sn : SN) (h : walkCondlist conds name width = .ok (some sn)) (hin : InSN ρ v sn) : AllHold ρ conds := by
  unfold walkCondlist at h
  split at h
  · rename_i hl
    have : conds = [] := by simpa using hl
    subst this
    intro c hc; simp at hc
  · rename_i hne
    obtain ⟨ρ', v', hs', hr', hh'⟩ := hsat
    obtain ⟨xs, f, e⟩ := walkCondLoop_eq (Q := fun c x => (SNOK ρ' width x ∧ InSN ρ' v' x) ∧
        SNOK ρ width x ∧ (InSN ρ v x → Holds ρ c)) conds none _ h (by
      intro c hc r hcr
      have hR := walkCond_reads name width c ρ' v' true r hs' (hr' c hc) hcr
      obtain ⟨sn, rfl, hin⟩ := hR.2.2.1 rfl (hh' c hc)
      have hR' := walkCond_reads name width c ρ v false _ hs (hr c hc) hcr
      obtain ⟨sn', e', hin'⟩ := hR'.2.2.2 rfl
      simp at e'; subst e'
      exact ⟨sn, rfl, ⟨hR.2.1 sn rfl, hin⟩, hR'.2.1 sn rfl, hin'⟩)
    have hx : ∀ x ∈ xs, (SNOK ρ' width x ∧ InSN ρ' v' x) ∧ SNOK ρ width x := by
      intro x hx
      obtain ⟨c, _, _, h⟩ := forall₂_mem_right f x hx
      exact ⟨h.1, h.2.1⟩
    obtain ⟨res', e', _, _, sp⟩ := notFold_spec xs none (by simp) (fun x hx' => (hx x hx').2.wf)
    rw [e'] at e; simp only [ok_inj] at e; subst e
    have hxs : xs ≠ [] := by
      rintro rfl
      cases f
      exact hne rfl
    obtain ⟨_, hiff⟩ := sp ρ' v' (by simp) (fun x hx' => (hx x hx').1.1) (fun _ => hxs) (by simp)
      (fun x hx' => (hx x hx').1.2)
    have hall := ((hiff ρ v (by simp) (fun x hx' => (hx x hx').2) sn rfl).mp hin).2
    intro c hc
    obtain ⟨x, hxm, _, _, _, hq⟩ := forall₂_mem_left f c hc
    exact hq (hall x hxm)

/-! ### When the walk succeeds -/

/-- The conditions the code can walk without raising: the state register is compared only with integer constants (and
not by `c >= state`, `C23_swapped_ge_raises`), and is not an operand of `&&`, `||`, `&`, `|` by itself. -/
def Walkable (name : ScopeChain) : DF → Prop
  | .op _ [x] => Walkable name x
  | .op o [l, r] =>
    if o.nonCondition then True
    else if o = .or ∨ o = .lor ∨ o = .and ∨ o = .land then
      Walkable name l ∧ Walkable name r ∧ l ≠ .term name ∧ r ≠ .term name
    else o.compare = true ∧ (l = .term name → ∃ c w a b, r = .ev (.int c) w a b) ∧
      (r = .term name → o ≠ .greaterEq ∧ ∃ c w a b, l = .ev (.int c) w a b)
  | .op _ _ => False
  | .none => False
  | _ => True

theorem ok_bind {α β : Type} (a : α) (f : α → Py β) : ((Except.ok a : Py α) >>= f) = f a := rfl

theorem createStateNode_ok (i : Inferred) (width : Nat) : ∃ sn, createStateNode i width = .ok (some sn) ∧ SNWF width sn := by
  obtain ⟨sn, h1, h2, _⟩ := inferOK (width := width) (i := i) (ρ := ⟨fun _ => none, fun _ => none, 0⟩)
  exact ⟨sn, h1, h2.wf⟩

theorem anyNode_wf {width : Nat} {c : DF} (hb : BaseTC c) : SNWF width (anyNode c width) := by
  have : tcOf c = some c := by cases c <;> first | rfl | exact absurd hb (by simp [BaseTC])
  simp only [anyNode, this, SNWF]
  exact ⟨rfl, rfl, by simp, by intro t e; simp at e; subst e; exact .inl hb⟩

theorem walkCompare_ok {name : ScopeChain} {width : Nat} {o : Op} {l r : DF} (hb : BaseTC (.op o [l, r]))
    (hl : l = .term name → ∃ i, infer o r = .ok i) (hr : l ≠ .term name → r = .term name → ∃ i, infer o.swapped l = .ok i) :
    ∃ sn, walkCompare o l r name width = .ok (some sn) ∧ SNWF width sn := by
  unfold walkCompare
  by_cases h1 : l = .term name
  · obtain ⟨i, hi⟩ := hl h1
    obtain ⟨sn, h, w⟩ := createStateNode_ok i width
    exact ⟨sn, by rw [if_pos h1, hi]; exact h, w⟩
  · by_cases h2 : r = .term name
    · obtain ⟨i, hi⟩ := hr h1 h2
      obtain ⟨sn, h, w⟩ := createStateNode_ok i width
      exact ⟨sn, by rw [if_neg h1, if_pos h2, hi]; exact h, w⟩
    · exact ⟨_, by rw [if_neg h1, if_neg h2], anyNode_wf hb⟩

theorem infer_compare_ok {o : Op} (h : o.compare = true) (c w a b) : ∃ i, infer o (.ev (.int c) w a b) = .ok i := by
  cases o <;> simp [Op.compare] at h <;> exact ⟨_, rfl⟩

theorem infer_swapped_ok {o : Op} (h : o.compare = true) (hg : o ≠ .greaterEq) (c w a b) :
    ∃ i, infer o.swapped (.ev (.int c) w a b) = .ok i := by
  cases o <;> simp [Op.compare] at h <;> first | exact absurd rfl hg | exact ⟨_, rfl⟩

theorem walkCond_ok (name : ScopeChain) (width : Nat) (c : DF) (hw : Walkable name c) :
    ∃ res, walkCond name width c = .ok res ∧ ∀ sn, res = some sn → SNWF width sn := by
  induction c using DF.ind with
  | none => exact absurd hw (by simp [Walkable])
  | term n =>
    simp only [walkCond]
    obtain ⟨sn, h, w⟩ := walkCompare_ok (width := width) (name := name) (o := .greaterThan) (l := .term n)
      (r := .evi 0 (some 32)) trivial (fun _ => infer_compare_ok rfl ..) (by simp [DF.evi])
    exact ⟨_, h, by intro x e; simp at e; subst e; exact w⟩
  | op o ns ih =>
    match ns, ih, hw with
    | [], _, hw => exact absurd hw (by simp [Walkable])
    | [x], ih, hw =>
      simp only [Walkable] at hw
      obtain ⟨res, e, w⟩ := ih x (by simp) hw
      simp only [walkCond, e]
      by_cases ho : o = .ulnot ∨ o = .unot
      · cases res with
        | none => exact ⟨none, by simp only [ok_bind, if_pos ho]; rfl, by simp⟩
        | some sn =>
          obtain ⟨res', e', w', _⟩ := notStateNodeList_spec (w sn rfl)
          exact ⟨res', by simp only [ok_bind, if_pos ho]; exact e', w'⟩
      · exact ⟨res, by simp only [ok_bind, if_neg ho], w⟩
    | [l, r], ih, hw =>
      simp only [Walkable] at hw
      simp only [walkCond]
      by_cases hnc : o.nonCondition = true
      · rw [if_pos hnc]
        refine ⟨_, rfl, ?_⟩
        intro x e; simp at e; subst e
        exact anyNode_wf (by cases o <;> simp [Op.nonCondition] at hnc <;> trivial)
      · rw [if_neg hnc] at hw ⊢
        by_cases hlog : o = .or ∨ o = .lor ∨ o = .and ∨ o = .land
        · rw [if_pos hlog] at hw
          obtain ⟨hwl, hwr, hl, hr⟩ := hw
          obtain ⟨ln, el, wl⟩ := ih l (by simp) hwl
          obtain ⟨rn, er, wr⟩ := ih r (by simp) hwr
          obtain ⟨y, ey, wy⟩ := walkCompare_ok (width := width) (name := name) (o := o) (l := l) (r := r)
            (by rcases hlog with rfl | rfl | rfl | rfl <;> trivial) (fun h => absurd h hl) (fun _ h => absurd h hr)
          by_cases hor : o = .or ∨ o = .lor
          · rw [if_pos hor]
            simp only [el, er, ok_bind]
            cases ho : orStateNodeList ln rn with
            | none => exact ⟨_, ey, by intro x e; simp at e; subst e; exact wy⟩
            | some x =>
              refine ⟨_, rfl, ?_⟩
              intro z e; simp at e; subst e
              rcases ln with _ | a
              · simp [orStateNodeList] at ho
              · rcases rn with _ | b
                · cases a <;> simp [orStateNodeList] at ho
                · obtain ⟨ns, e, rfl⟩ := @orStateNodeList_spec a b
                  rw [e] at ho; simp at ho; subst ho
                  refine ⟨?_, ?_⟩
                  · have := wl a rfl
                    cases a with
                    | one n => simp [nodesOf]
                    | many ns => simp [nodesOf, this.1]
                  · intro n hn
                    rcases List.mem_append.mp hn with hn | hn
                    · exact (wl a rfl).nodes n hn
                    · exact (wr b rfl).nodes n hn
          · have hand : o = .and ∨ o = .land := by
              rcases hlog with h | h | h
              · exact absurd (.inl h) hor
              · exact absurd (.inr h) hor
              · exact h
            rw [if_neg hor, if_pos hand]
            simp only [el, er, ok_bind]
            have hx : ∃ x, andStateNodeList ln rn = .ok x ∧ ∀ sn, x = some sn → SNWF width sn := by
              rcases ln with _ | a <;> rcases rn with _ | b
              · exact ⟨none, rfl, by simp⟩
              · exact ⟨some b, rfl, wr⟩
              · exact ⟨some a, by cases a <;> rfl, wl⟩
              · obtain ⟨x, h1, h2, _⟩ := andStateNodeList_spec (wl a rfl) (wr b rfl)
                exact ⟨x, h1, h2⟩
            obtain ⟨x, hx, wx⟩ := hx
            simp only [hx, ok_bind]
            cases x with
            | none => exact ⟨_, ey, by intro x e; simp at e; subst e; exact wy⟩
            | some x => exact ⟨_, rfl, wx⟩
        · rw [if_neg hlog] at hw
          obtain ⟨hcmp, hl, hr⟩ := hw
          rw [if_neg (fun h => hlog (h.elim .inl (fun h => .inr (.inl h)))), if_neg (fun h => hlog (.inr (.inr h)))]
          obtain ⟨y, ey, wy⟩ := walkCompare_ok (width := width) (name := name) (o := o) (l := l) (r := r)
            (by cases o <;> simp [Op.compare] at hcmp <;> trivial)
            (fun h => by obtain ⟨c, w, a, b, rfl⟩ := hl h; exact infer_compare_ok hcmp ..)
            (fun _ h => by obtain ⟨hg, c, w, a, b, rfl⟩ := hr h; exact infer_swapped_ok hcmp hg ..)
          exact ⟨_, ey, by intro x e; simp at e; subst e; exact wy⟩
    | a :: b :: c :: ns, _, hw => exact absurd hw (by simp [Walkable])
  | _ =>
    simp only [walkCond]
    exact ⟨_, rfl, by intro x e; simp at e; subst e; exact anyNode_wf trivial⟩

/-- **C23** `walkCondlist` returns on every list of `Walkable` conditions. -/
theorem C23_walk_total (name : ScopeChain) (width : Nat) (conds : List DF) (hw : ∀ c ∈ conds, Walkable name c) :
    ∃ res, walkCondlist conds name width = .ok res := by
  unfold walkCondlist
  split
  · exact ⟨_, rfl⟩
  · have key : ∀ (cs : List DF) (node : Option SN), (∀ c ∈ cs, Walkable name c) → (∀ sn, node = some sn → SNWF width sn) →
        ∃ res, walkCondLoop name width node cs = .ok res := by
      intro cs
      induction cs with
      | nil => intro node _ _; exact ⟨node, rfl⟩
      | cons c cs ih =>
        intro node hw hn
        obtain ⟨r, e, wr⟩ := walkCond_ok name width c (hw c (by simp))
        have hw' := fun c hc => hw c (List.mem_cons_of_mem _ hc)
        simp only [walkCondLoop, e, ok_bind]
        rcases node with _ | n <;> rcases r with _ | r
        · exact ih none hw' (by simp)
        · exact ih (some r) hw' wr
        · exact ih (some n) hw' hn
        · obtain ⟨x, h1, h2, _⟩ := andStateNodeList_spec (hn n rfl) (wr r rfl)
          simp only [h1, ok_bind]
          exact ih x hw' h2
    exact key conds none hw (by simp)

/-! ### Where the code differs -/

/-- The state register `s` and another signal `d`. -/
def c23s : ScopeChain := [⟨['s'], .signal, none⟩]
def c23d : ScopeChain := [⟨['d'], .signal, none⟩]
/-- `s` holds `v`, `d` holds `x`, both two bits wide. -/
def c23env (v x : Int) : Env := ⟨fun n => if n = c23s then some (v, 2) else some (x, 2), fun _ => none, 32⟩

/-- **C23** is false of the code: the condition `!(!(s == 0 || s != 0))` always holds, and no state is reported. -/
theorem C23_double_negation_false : ∃ c : DF, (∀ v x, Holds (c23env v x) c) ∧ walkCondlist [c] c23s 2 = .ok none := by
  refine ⟨.op .ulnot [.op .ulnot [.op .lor [.op .eq [.term c23s, .evi 0 (some 32)], .op .notEq [.term c23s, .evi 0 (some 32)]]]],
    ?_, by decide +kernel⟩
  intro v x
  rw [holds_not]
  by_cases hv : v = 0 <;>
    simp [sem, semList, opSem, b2i, c23env, DF.evi, hv]

/-- **C23** is false of the code: `~d` holds when `d` is 1 (of two bits), but the state is only reported under the
condition `!(d > 0)`. -/
theorem C23_bitwise_not_false : ∃ (c : DF) (sn : SN), Holds (c23env 0 1) c ∧ walkCondlist [c] c23s 2 = .ok (some sn) ∧
    ∀ v, ¬ InSN (c23env 0 1) v sn := by
  refine ⟨.op .unot [.term c23d], .one { tc := some (.op .ulnot [.op .greaterThan [.term c23d, .evi 0 (some 32)]]), maxv := 3, isany := true },
    ⟨(2, 2), by decide, by decide⟩, by decide, ?_⟩
  intro v h
  have := h.2 _ rfl
  rw [holds_not] at this
  revert this
  simp [sem, semList, opSem, b2i, c23env, DF.evi, c23s, c23d]

/-- **C23** is false of the code: `~|s` holds in state 0, but it is read like `s`, and only the other states are
reported. -/
theorem C23_reduction_false : ∃ (c : DF) (sn : SN), Holds (c23env 0 0) c ∧ walkCondlist [c] c23s 2 = .ok (some sn) ∧
    ¬ InSN (c23env 0 0) 0 sn := by
  refine ⟨.op .unor [.term c23s], .one { ranges := [(1, 3)], maxv := 3 }, ⟨(1, 1), by decide, by decide⟩, by decide, ?_⟩
  simp [InSN, InNode, InRanges]

/-- **C23** The code cannot walk `2 >= s`. -/
theorem C23_swapped_ge_raises : walkCondlist [.op .greaterEq [.evi 2 (some 32), .term c23s]] c23s 2 = .error .format := by
  decide

/-- **C23** The code cannot walk `s && s == 0`. -/
theorem C23_bare_state_raises :
    walkCondlist [.op .land [.term c23s, .op .eq [.term c23s, .evi 0 (some 32)]]] c23s 2 = .error .format := by
  decide +kernel

/-- Non-vacuity: the list `!(s == 1 && d)`, `s < 3` in state 1 with `d = 0`. -/
def c23conds : List DF := [.op .ulnot [.op .land [.op .eq [.term c23s, .evi 1 (some 32)], .term c23d]],
  .op .lessThan [.term c23s, .evi 3 (some 32)]]
example : StateIs (c23env 1 0) c23s 2 1 := ⟨⟨2, by simp [c23env]⟩, by decide, by decide⟩
example : ∀ c ∈ c23conds, Readable c23s 2 c (c23env 1 0) true ∧ Walkable c23s c := by
  intro c hc
  simp only [c23conds, List.mem_cons, List.not_mem_nil, or_false] at hc
  rcases hc with rfl | rfl
  · refine ⟨?_, ?_⟩
    · simp [Readable, Op.nonCondition, Op.compare, Defined, sem, semList, c23env, DF.evi, opSem, StrictOK]
      exact ⟨0, ⟨2, by decide⟩, by decide⟩
    · simp [Walkable, Op.nonCondition, Op.compare, DF.evi, c23s, c23d]
  · refine ⟨?_, ?_⟩
    · simp [Readable, Op.nonCondition, Op.compare, Defined, sem, semList, c23env, DF.evi, opSem]
    · simp [Walkable, Op.nonCondition, Op.compare, DF.evi]
example : AllHold (c23env 1 0) c23conds := by
  intro c hc
  simp only [c23conds, List.mem_cons, List.not_mem_nil, or_false] at hc
  rcases hc with rfl | rfl <;> simp [Holds, sem, semList, c23env, DF.evi, opSem, b2i, c23s, c23d]
/-- Non-vacuity of the satisfiability demanded below two negations. -/
example : Readable c23s 2 (.op .ulnot [.op .ulnot [.op .eq [.term c23s, .evi 1 (some 32)]]]) (c23env 1 0) true := by
  simp only [Readable, true_or, if_true]
  refine ⟨by simp, ⟨by simp, ?_, ?_⟩, by simp⟩
  · simp [Readable, Op.nonCondition, Op.compare, Defined, sem, semList, c23env, DF.evi, opSem]
  · intro _
    refine ⟨c23env 2 0, 2, ⟨⟨2, by simp [c23env]⟩, by decide, by decide⟩, ?_, by simp, ?_⟩
    · simp [Op.nonCondition, Op.compare, Defined, sem, semList, c23env, DF.evi, opSem, StrictOK]
    · simp [Holds, sem, semList, c23env, DF.evi, opSem, b2i]

end Pyv
