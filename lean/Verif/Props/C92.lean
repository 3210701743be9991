import Verif.Props.ARangeProps
/-
  C92: the operations on the ranges of an active term.
-/
namespace Pyv

/-! ### Negation -/

/-- **C92** After `opNot`, a term with ranges has exactly the values between its bounds that it did not have before. -/
theorem C92_not_partial (t t' : ATerm) (h : t.opNot = .ok t') (hne : t.ranges ≠ []) (x : Int) (h1 : t.minv ≤ x) (h2 : x ≤ t.maxv) :
    t'.Has x ↔ ¬ t.Has x := (opNot_spec h hne).2.2.2 x h1 h2

theorem lowers_total {rs : List ARange} : (∀ p ∈ rs, p.1 ≠ none) → ∃ ps, lowers rs = .ok ps := by
  induction rs with
  | nil => exact fun _ => ⟨[], rfl⟩
  | cons p rs ih =>
    intro h
    obtain ⟨lo, hi⟩ := p
    obtain ⟨ps, hps⟩ := ih (fun p hp => h p (List.mem_cons_of_mem _ hp))
    cases lo with
    | none => exact absurd rfl (h (none, hi) (by simp))
    | some lo => exact ⟨(lo, hi) :: ps, by rw [lowers, hps]; rfl⟩

/-- **C92** `opNot` fails for no term whose ranges have lower bounds. -/
theorem C92_not_total (t : ATerm) (h : ∀ p ∈ t.ranges, p.1 ≠ none) : ∃ t', t.opNot = .ok t' ∧ t'.name = t.name ∧ t'.minv = t.minv ∧ t'.maxv = t.maxv := by
  simp only [ATerm.opNot]
  split
  · obtain ⟨ps, hps⟩ := lowers_total h
    rw [hps]
    exact ⟨_, rfl, rfl, rfl, rfl⟩
  · exact ⟨t, rfl, rfl, rfl, rfl⟩

/-- Non-vacuity: `x > 2` in 4 bits, and its negation. -/
def c92x : ScopeChain := [⟨['x'], .signal, none⟩]
example : ATerm.opNot ⟨c92x, [(some 3, none)], 0, 15⟩ = .ok ⟨c92x, [(some 0, some 2)], 0, 15⟩ := by decide +kernel
example : ATerm.opNot ⟨c92x, [(some 8, some 9), (some 3, some 5)], 0, 15⟩ =
    .ok ⟨c92x, [(some 0, some 2), (some 6, some 7), (some 10, some 15)], 0, 15⟩ := by decide +kernel

/-- **C92** is false for terms without ranges: a term that is never true (a contradiction such as `x < 2 && x == 3`, or the negation of
`x >= 0`) is still never true after `opNot`. -/
theorem C92_not_empty_false (t : ATerm) (h : t.ranges = []) : t.opNot = .ok t ∧ ∀ x, ¬ t.Has x := by
  constructor
  · simp [ATerm.opNot, h]
  · rintro x ⟨p, hp, _⟩; rw [h] at hp; cases hp

example : (⟨c92x, [], 0, 15⟩ : ATerm).ranges = [] := rfl
example : ATerm.opNot ⟨c92x, [(some 0, none)], 0, 15⟩ = .ok ⟨c92x, [], 0, 15⟩ := by decide +kernel

/-! ### Conjunction -/

/-- **C92** Setting a term in a condition that already has one of the same name: the term in the dictionary has afterwards the values that both
had, and no other term is changed. -/
theorem C92_and_partial (c c' : ACond) (h h' : AHeap) (n : ScopeChain) (q r : Nat) (a b : ATerm) (hq : c.get? n = some q) (ha : h[q]? = some a)
    (hb : h[r]? = some b) (hx : ACond.put c h n r = .ok (c', h')) :
    c' = c ∧ (∃ a', h'[q]? = some a' ∧ ∀ x, a'.Has x ↔ a.Has x ∧ b.Has x) ∧ ∀ p, p ≠ q → h'[p]? = h[p]? := by
  simp only [ACond.put, hq, ha, hb, bind_ok, ok_inj, Prod.mk.injEq] at hx
  obtain ⟨rs, hrs, rfl, rfl⟩ := hx
  have hl : q < h.length := by
    rw [List.getElem?_eq_some_iff] at ha
    exact ha.1
  refine ⟨rfl, ⟨_, List.getElem?_set_self hl, fun x => andARanges_spec hrs x⟩, fun p hp => List.getElem?_set_ne (Ne.symm hp)⟩

/-- Non-vacuity: `x <= 7 && 3 <= x && x != 5`. -/
example : ACond.put [(c92x, 0)] [⟨c92x, [(some 0, some 7)], 0, 15⟩, ⟨c92x, [(some 3, some 4), (some 6, some 15)], 0, 15⟩] c92x 1 =
    .ok ([(c92x, 0)], [⟨c92x, [(some 3, some 4), (some 6, some 7)], 0, 15⟩, ⟨c92x, [(some 3, some 4), (some 6, some 15)], 0, 15⟩]) := by decide +kernel

/-- **C92** is false for ranges without an upper bound, which is what `>` and `>=` give: their conjunction with any range of the same
signal raises TypeError. -/
theorem C92_and_open_false (lo : Int) (p : ARange) : andARanges [(some lo, none)] [p] = .error .type ∧ andARanges [p] [(some lo, none)] = .error .type := by
  obtain ⟨a, b⟩ := p
  constructor <;> cases a <;> cases b <;> rfl

/-! ### Membership -/

theorem mem_insertA (x y : Int × Option Int) (l : List (Int × Option Int)) : y ∈ insertA x l ↔ y = x ∨ y ∈ l := by
  induction l with
  | nil => simp [insertA]
  | cons z l ih =>
    rw [insertA]
    split
    · simp
    · simp only [List.mem_cons, ih]; tauto

theorem mem_sortA (y : Int × Option Int) (l : List (Int × Option Int)) : y ∈ l.foldr insertA [] ↔ y ∈ l := by
  induction l with
  | nil => simp
  | cons z l ih => rw [List.foldr_cons, mem_insertA, ih, List.mem_cons]

theorem satLoop_spec {x : Int} : ∀ {ps : List (Int × Option Int)} {b : Bool}, satLoop x ps = .ok b →
    (b = true ↔ ∃ p ∈ ps, p.1 ≤ x ∧ ∀ hi, p.2 = some hi → x ≤ hi)
  | [], b, h => by simp only [satLoop, ok_inj] at h; subst h; simp
  | (lo, hi) :: ps, b, h => by
    rw [satLoop.eq_def] at h
    simp only at h
    split at h
    · rename_i hlo
      cases hi with
      | none => simp at h
      | some hi =>
        simp only at h
        split at h
        · rename_i hhi
          simp only [ok_inj] at h
          subst h
          simp [hlo, hhi]
        · rename_i hhi
          rw [satLoop_spec h]
          simp [hlo, hhi]
    · rename_i hlo
      rw [satLoop_spec h]
      simp [hlo]

/-- **C92** If `satisfy` answers, its answer is whether the term has the value. -/
theorem C92_satisfy_partial (t : ATerm) (x : Int) (b : Bool) (h : t.satisfy x = .ok b) : b = true ↔ t.Has x := by
  simp only [ATerm.satisfy, bind_ok] at h
  obtain ⟨ps, hps, h⟩ := h
  rw [satLoop_spec h, ATerm.Has, lowers_ok hps]
  constructor
  · rintro ⟨p, hp, h1, h2⟩
    exact ⟨_, List.mem_map.mpr ⟨p, (mem_sortA p ps).mp hp, rfl⟩, ⟨p.1, rfl, h1⟩, h2⟩
  · rintro ⟨_, hq, ⟨lo, e, h1⟩, h2⟩
    obtain ⟨p, hp, rfl⟩ := List.mem_map.mp hq
    simp only [Option.some.injEq] at e
    subst e
    exact ⟨p, (mem_sortA p ps).mpr hp, h1, h2⟩

theorem satLoop_total {x : Int} : ∀ {ps : List (Int × Option Int)}, (∀ p ∈ ps, p.2 ≠ none) → ∃ b, satLoop x ps = .ok b
  | [], _ => ⟨false, rfl⟩
  | (lo, none) :: ps, h => absurd rfl (h (lo, none) (by simp))
  | (lo, some hi) :: ps, h => by
    obtain ⟨b, hb⟩ := satLoop_total (x := x) (fun p hp => h p (List.mem_cons_of_mem _ hp))
    rw [satLoop]
    split
    · split
      · exact ⟨_, rfl⟩
      · exact ⟨b, hb⟩
    · exact ⟨b, hb⟩

/-- **C92** `satisfy` answers whenever all ranges have both bounds. -/
theorem C92_satisfy_total (t : ATerm) (x : Int) (h : ∀ p ∈ t.ranges, p.1 ≠ none ∧ p.2 ≠ none) : ∃ b, t.satisfy x = .ok b := by
  obtain ⟨ps, hps⟩ := lowers_total (fun p hp => (h p hp).1)
  rw [ATerm.satisfy, hps]
  refine satLoop_total ?_
  intro p hp
  have hm : ((some p.1, p.2) : ARange) ∈ t.ranges := by
    rw [lowers_ok hps]
    exact List.mem_map.mpr ⟨p, (mem_sortA p ps).mp hp, rfl⟩
  exact (h _ hm).2

example : ATerm.satisfy ⟨c92x, [(some 8, some 9), (some 3, some 5)], 0, 15⟩ 4 = .ok true ∧
    ATerm.satisfy ⟨c92x, [(some 8, some 9), (some 3, some 5)], 0, 15⟩ 6 = .ok false := by decide +kernel

/-- **C92** is false for ranges without an upper bound: asked about a value the term has, `satisfy` raises TypeError. -/
theorem C92_satisfy_open_false (n : ScopeChain) (lo mi ma x : Int) (h : lo ≤ x) : ATerm.satisfy ⟨n, [(some lo, none)], mi, ma⟩ x = .error .type ∧
    (⟨n, [(some lo, none)], mi, ma⟩ : ATerm).Has x := by
  constructor
  · simp [ATerm.satisfy, lowers, ok_bind, insertA, satLoop, h]
  · exact ⟨_, List.mem_singleton.mpr rfl, ⟨lo, rfl, h⟩, by simp⟩

/-! ### The tree of a term -/

/-- **C92** The tree of a range without an upper bound holds for exactly the values of the range. -/
theorem C92_tree_partial (n : ScopeChain) (lo mi ma : Int) (ρ : Env) (x w : Int) (hx : ρ.sig n = some (x, w)) (d : DF)
    (h : ATerm.toTree ⟨n, [(some lo, none)], mi, ma⟩ = .ok d) :
    (∃ v b, sem ρ d = some (v, b) ∧ v ≠ 0) ↔ (⟨n, [(some lo, none)], mi, ma⟩ : ATerm).Has x := by
  have e : ATerm.toTree ⟨n, [(some lo, none)], mi, ma⟩ = .ok (.op .lessEq [.evi lo (some 32), .term n]) := rfl
  rw [e, ok_inj] at h
  subst h
  simp [ATerm.Has, ARange.Has, sem, semList, hx, opSem, DF.evi, b2i]

/-- **C92** is false for closed ranges: the tree of `lo ≤ x ≤ hi` says `lo ≤ x && x >= hi`; it holds for the values from `hi` upwards. -/
theorem C92_tree_closed_false (n : ScopeChain) (lo hi mi ma : Int) (hlh : lo ≤ hi) (ρ : Env) (x w : Int) (hx : ρ.sig n = some (x, w)) (d : DF)
    (h : ATerm.toTree ⟨n, [(some lo, some hi)], mi, ma⟩ = .ok d) :
    (∃ v b, sem ρ d = some (v, b) ∧ v ≠ 0) ↔ hi ≤ x := by
  have e : ATerm.toTree ⟨n, [(some lo, some hi)], mi, ma⟩ =
    .ok (.op .land [.op .lessEq [.evi lo (some 32), .term n], .op .greaterEq [.term n, .evi hi (some 32)]]) := rfl
  rw [e, ok_inj] at h
  subst h
  simp [sem, semList, hx, opSem, DF.evi, b2i]
  omega

example : ∃ d, ATerm.toTree ⟨c92x, [(some 3, some 5)], 0, 15⟩ = .ok d := ⟨_, rfl⟩
example : ∃ d, ATerm.toTree ⟨c92x, [(some 3, none)], 0, 15⟩ = .ok d := ⟨_, rfl⟩

/-- What the tree of a range says of a value: a lower bound, and an upper bound as another lower bound. -/
def ARange.Says (p : ARange) (x : Int) : Prop := ∃ lo, p.1 = some lo ∧ lo ≤ x ∧ ∀ hi, p.2 = some hi → hi ≤ x

theorem pairTree_sem {n : ScopeChain} {p : ARange} {d : DF} (h : pairTree n p = .ok d) {ρ : Env} {x w : Int} (hx : ρ.sig n = some (x, w)) :
    Defined ρ d ∧ (Holds ρ d ↔ p.Says x) := by
  obtain ⟨lo, hi⟩ := p
  cases lo with
  | none => cases h
  | some lo =>
    cases hi with
    | none =>
      simp only [pairTree, ok_inj] at h
      subst h
      simp [Defined, Holds, sem, semList, hx, opSem, DF.evi, b2i, ARange.Says]
    | some hi =>
      simp only [pairTree, ok_inj] at h
      subst h
      simp [Defined, Holds, sem, semList, hx, opSem, DF.evi, b2i, ARange.Says]

theorem defined_bin {ρ : Env} {o : Op} (ho : o = .lor ∨ o = .land) {a b : DF} (ha : Defined ρ a) (hb : Defined ρ b) : Defined ρ (.op o [a, b]) := by
  obtain ⟨x, hx⟩ := ha
  obtain ⟨y, hy⟩ := hb
  rcases ho with rfl | rfl <;> simp [Defined, sem, semList, hx, hy, opSem]

theorem lorFold {ρ : Env} : ∀ {ts : List DF} {a : DF}, Defined ρ a → (∀ t ∈ ts, Defined ρ t) →
    Defined ρ (ts.foldl (fun a b => .op .lor [a, b]) a) ∧ (Holds ρ (ts.foldl (fun a b => .op .lor [a, b]) a) ↔ Holds ρ a ∨ ∃ t ∈ ts, Holds ρ t)
  | [], a, ha, _ => by simp [ha]
  | t :: ts, a, ha, ht => by
    have h1 := ht t (by simp)
    obtain ⟨d, e⟩ := lorFold (ρ := ρ) (ts := ts) (defined_bin (.inl rfl) ha h1) (fun t h => ht t (List.mem_cons_of_mem _ h))
    refine ⟨d, ?_⟩
    rw [List.foldl_cons, e, holds_or (.inr rfl) ha h1]
    simp [or_assoc]

/-- The tree of a term with ranges. -/
theorem termTree_sem {t : ATerm} {d : DF} (h : t.toTree = .ok d) (hne : t.ranges ≠ []) {ρ : Env} {x w : Int} (hx : ρ.sig t.name = some (x, w)) :
    Defined ρ d ∧ (Holds ρ d ↔ ∃ p ∈ t.ranges, p.Says x) := by
  simp only [ATerm.toTree, bind_ok] at h
  obtain ⟨ts, hts, h⟩ := h
  have hf := mapM_ok.mp hts
  cases ts with
  | nil =>
    cases hr : t.ranges with
    | nil => exact absurd hr hne
    | cons p ps => rw [hr] at hf; cases hf
  | cons a ts =>
    simp only [ok_inj] at h
    subst h
    have hd : ∀ b ∈ a :: ts, Defined ρ b := by
      intro b hb
      obtain ⟨p, _, hp⟩ := forall₂_mem_right hf b hb
      exact (pairTree_sem hp hx).1
    obtain ⟨d1, d2⟩ := lorFold (hd a (by simp)) (fun b hb => hd b (List.mem_cons_of_mem _ hb))
    refine ⟨d1, d2.trans ?_⟩
    have : (Holds ρ a ∨ ∃ b ∈ ts, Holds ρ b) ↔ ∃ b ∈ a :: ts, Holds ρ b := by simp
    rw [this]
    constructor
    · rintro ⟨b, hb, hh⟩
      obtain ⟨p, hp, hq⟩ := forall₂_mem_right hf b hb
      exact ⟨p, hp, (pairTree_sem hq hx).2.mp hh⟩
    · rintro ⟨p, hp, hh⟩
      obtain ⟨b, hb, hq⟩ := forall₂_mem_left hf p hp
      exact ⟨b, hb, (pairTree_sem hq hx).2.mpr hh⟩

/-- **C92** What the tree of a term with ranges says exactly, for all terms: the value is at least one of the lower bounds and, if this range has
an upper bound, at least that. -/
theorem C92_tree_exact (t : ATerm) (d : DF) (h : t.toTree = .ok d) (hne : t.ranges ≠ []) (ρ : Env) (x w : Int) (hx : ρ.sig t.name = some (x, w)) :
    Holds ρ d ↔ ∃ p ∈ t.ranges, ∃ lo, p.1 = some lo ∧ lo ≤ x ∧ ∀ hi, p.2 = some hi → hi ≤ x :=
  (termTree_sem h hne hx).2

/-- **C92** So the tree of a term without upper bounds holds for exactly the values of the term. -/
theorem C92_tree_open_partial (t : ATerm) (d : DF) (h : t.toTree = .ok d) (hne : t.ranges ≠ []) (ho : ∀ p ∈ t.ranges, p.2 = none) (ρ : Env)
    (x w : Int) (hx : ρ.sig t.name = some (x, w)) : Holds ρ d ↔ t.Has x := by
  rw [C92_tree_exact t d h hne ρ x w hx]
  constructor
  · rintro ⟨p, hp, lo, e, hl, _⟩
    exact ⟨p, hp, ⟨lo, e, hl⟩, by simp [ho p hp]⟩
  · rintro ⟨p, hp, ⟨lo, e, hl⟩, _⟩
    exact ⟨p, hp, lo, e, hl, by simp [ho p hp]⟩

example : ∃ d, ATerm.toTree ⟨c92x, [(some 3, none), (some 8, none)], 0, 15⟩ = .ok d := ⟨_, rfl⟩

/-! ### Conditions -/

/-- **C92** If `satisfy` of a condition answers, it answers whether every given value of a signal of the condition belongs to its term. -/
theorem C92_cond_satisfy_partial (c : ACond) (h : AHeap) : ∀ (vs : List (ScopeChain × Int)) (b : Bool), c.satisfy h vs = .ok b →
    (b = true ↔ ∀ p ∈ vs, ∀ r, c.get? p.1 = some r → ∃ t, h[r]? = some t ∧ t.Has p.2)
  | [], b, hb => by simp only [ACond.satisfy, ok_inj] at hb; subst hb; simp
  | (n, v) :: vs, b, hb => by
    rw [ACond.satisfy] at hb
    cases hg : c.get? n with
    | none =>
      rw [hg] at hb
      rw [C92_cond_satisfy_partial c h vs b hb]
      simp [hg]
    | some r =>
      rw [hg] at hb
      simp only at hb
      cases ht : h[r]? with
      | none => rw [ht] at hb; cases hb
      | some t =>
        rw [ht] at hb
        simp only [bind_ok] at hb
        obtain ⟨y, hy, hb⟩ := hb
        have hy' := C92_satisfy_partial t v y hy
        cases y with
        | true =>
          rw [if_pos rfl] at hb
          rw [C92_cond_satisfy_partial c h vs b hb]
          simp [hg, ht, hy'.mp rfl]
        | false =>
          simp only [Bool.false_eq_true, if_false, ok_inj] at hb
          subst hb
          simp only [Bool.false_eq_true, false_iff, List.mem_cons, forall_eq_or_imp, hg, Option.some.injEq, forall_eq', ht, exists_eq_left', not_and]
          intro hh
          exact absurd (hy'.mpr hh) (by simp)

/-- Non-vacuity. -/
example : ACond.satisfy [(c92x, 0)] [⟨c92x, [(some 3, some 5)], 0, 15⟩] [([⟨['y'], .signal, none⟩], 9), (c92x, 4)] = .ok true ∧
    ACond.satisfy [(c92x, 0)] [⟨c92x, [(some 3, some 5)], 0, 15⟩] [(c92x, 6)] = .ok false := by decide +kernel

/-- The terms of a condition are those of its signals. -/
def ACond.Named (c : ACond) (h : AHeap) : Prop := ∀ p ∈ c, ∃ t, h[p.2]? = some t ∧ t.name = p.1

theorem condTreeLoop_sem {h : AHeap} {ρ : Env} : ∀ {es : List (ScopeChain × Nat)} {acc d : DF}, condTreeLoop h acc es = .ok d →
    (∀ p ∈ es, ∃ t, h[p.2]? = some t ∧ t.name = p.1 ∧ t.ranges ≠ [] ∧ (∀ q ∈ t.ranges, q.2 = none) ∧ ∃ x w, ρ.sig t.name = some (x, w)) →
    acc ≠ .none → Defined ρ acc → (Holds ρ d ↔ Holds ρ acc ∧ ∀ p ∈ es, TermIs h ρ p.1 p.2)
  | [], acc, d, hd, _, _, _ => by
    simp only [condTreeLoop, ok_inj] at hd
    subst hd
    simp
  | (n, r) :: es, acc, d, hd, hp, hacc, hdef => by
    obtain ⟨t, ht, hn, hne, ho, x, w, hx⟩ := hp (n, r) (by simp)
    simp only at ht hn
    rw [condTreeLoop, ht] at hd
    simp only [bind_ok] at hd
    obtain ⟨b, hb, hd⟩ := hd
    rw [if_neg hacc] at hd
    obtain ⟨b1, _⟩ := termTree_sem hb hne hx
    have b2 := C92_tree_open_partial t b hb hne ho ρ x w hx
    rw [condTreeLoop_sem hd (fun p h => hp p (List.mem_cons_of_mem _ h)) (by simp) (defined_bin (.inr rfl) hdef b1), holds_land, b2]
    have : t.Has x ↔ TermIs h ρ n r := by
      constructor
      · intro hh
        exact ⟨t, ht, x, w, hn ▸ hx, hh⟩
      · rintro ⟨t', ht', x', w', hx', hh⟩
        rw [ht] at ht'
        simp only [Option.some.injEq] at ht'
        subst ht'
        rw [← hn, hx] at hx'
        simp only [Option.some.injEq, Prod.mk.injEq] at hx'
        exact hx'.1 ▸ hh
    rw [this]
    simp [and_assoc]

/-- **C92** The tree of a condition whose terms have ranges without upper bounds is true exactly when the condition is; the empty condition gives
the constant 1. -/
theorem C92_cond_tree_partial (c : ACond) (h : AHeap) (d : DF) (hd : c.toTree h = .ok d) (ρ : Env)
    (hp : ∀ p ∈ c, ∃ t, h[p.2]? = some t ∧ t.name = p.1 ∧ t.ranges ≠ [] ∧ (∀ q ∈ t.ranges, q.2 = none) ∧ ∃ x w, ρ.sig t.name = some (x, w)) :
    Holds ρ d ↔ CondIs h ρ c := by
  cases c with
  | nil =>
    simp only [ACond.toTree, List.length_nil, if_true, ok_inj] at hd
    subst hd
    simp [Holds, sem, DF.evi, CondIs]
  | cons e es =>
    obtain ⟨n, r⟩ := e
    rw [ACond.toTree, if_neg (by simp)] at hd
    obtain ⟨t, ht, hn, hne, ho, x, w, hx⟩ := hp (n, r) (by simp)
    simp only at ht hn
    rw [condTreeLoop, ht] at hd
    simp only [bind_ok] at hd
    obtain ⟨b, hb, hd⟩ := hd
    rw [if_pos trivial] at hd
    obtain ⟨b1, _⟩ := termTree_sem hb hne hx
    have b2 := C92_tree_open_partial t b hb hne ho ρ x w hx
    have hbn : b ≠ .none := by
      rintro rfl
      obtain ⟨y, hy⟩ := b1
      simp [sem] at hy
    rw [condTreeLoop_sem hd (fun p h => hp p (List.mem_cons_of_mem _ h)) hbn b1, b2]
    have : t.Has x ↔ TermIs h ρ n r := by
      constructor
      · intro hh
        exact ⟨t, ht, x, w, hn ▸ hx, hh⟩
      · rintro ⟨t', ht', x', w', hx', hh⟩
        rw [ht] at ht'
        simp only [Option.some.injEq] at ht'
        subst ht'
        rw [← hn, hx] at hx'
        simp only [Option.some.injEq, Prod.mk.injEq] at hx'
        exact hx'.1 ▸ hh
    rw [this]
    simp [CondIs]

def c92y : ScopeChain := [⟨['y'], .signal, none⟩]
example : ∃ d, ACond.toTree [(c92x, 0), (c92y, 1)] [⟨c92x, [(some 3, none)], 0, 15⟩, ⟨c92y, [(some 1, none)], 0, 15⟩] = .ok d ∧
    (Holds ⟨fun _ => some (3, 4), fun _ => none, 32⟩ d ↔ CondIs [⟨c92x, [(some 3, none)], 0, 15⟩, ⟨c92y, [(some 1, none)], 0, 15⟩]
      ⟨fun _ => some (3, 4), fun _ => none, 32⟩ [(c92x, 0), (c92y, 1)]) :=
  ⟨_, rfl, C92_cond_tree_partial _ _ _ rfl _ (by simp [c92x, c92y])⟩

/-- **C92** False for a condition with a term without values: this term is not part of the tree if it stands first. -/
theorem C92_cond_tree_empty_false (n : ScopeChain) (r : Nat) (t : ATerm) (c : ACond) (h : AHeap) (ht : h[r]? = some t) (hr : t.ranges = [])
    (hc : c ≠ []) : ACond.toTree ((n, r) :: c) h = c.toTree h := by
  have : t.toTree = .ok .none := by
    simp only [ATerm.toTree, hr]
    rfl
  have hl : ¬ c.length = 0 := by simpa using hc
  have hl' : ¬ ((n, r) :: c).length = 0 := by simp
  simp only [ACond.toTree, if_neg hl, if_neg hl', condTreeLoop, ht, this, ok_bind, if_true]

example : ACond.toTree [(c92x, 0), (c92y, 1)] [⟨c92x, [], 0, 15⟩, ⟨c92y, [(some 1, none)], 0, 15⟩] =
    .ok (.op .lessEq [.evi 1 (some 32), .term c92y]) := rfl

/-- **C92** `include` says whether the condition has a term for the signal; `split` separates this term from the others, and the condition is
true exactly when both parts are. -/
theorem C92_split (c : ACond) (h : AHeap) (n : ScopeChain) (hn : c.Named h) :
    (c.include h n = true ↔ n ∈ c.map (·.1)) ∧ (∀ p, p ∈ (c.split h n).1 ↔ p ∈ c ∧ p.1 = n) ∧ (∀ p, p ∈ (c.split h n).2 ↔ p ∈ c ∧ p.1 ≠ n) ∧
    ∀ ρ, CondIs h ρ c ↔ CondIs h ρ (c.split h n).1 ∧ CondIs h ρ (c.split h n).2 := by
  have key : ∀ p ∈ c, isTermOf h n p = decide (p.1 = n) := by
    intro p hp
    obtain ⟨t, ht, e⟩ := hn p hp
    simp only [isTermOf, ht, e, eq_comm]
  have h1 : ∀ p, p ∈ (c.split h n).1 ↔ p ∈ c ∧ p.1 = n := by
    intro p
    simp only [ACond.split, List.mem_filter]
    exact and_congr_right fun hp => by rw [key p hp, decide_eq_true_eq]
  have h2 : ∀ p, p ∈ (c.split h n).2 ↔ p ∈ c ∧ p.1 ≠ n := by
    intro p
    simp only [ACond.split, List.mem_filter]
    exact and_congr_right fun hp => by rw [key p hp]; simp
  refine ⟨?_, h1, h2, ?_⟩
  · simp only [ACond.include, List.any_eq_true, List.mem_map]
    constructor
    · rintro ⟨p, hp, hh⟩
      rw [key p hp] at hh
      exact ⟨p, hp, by simpa using hh⟩
    · rintro ⟨p, hp, hh⟩
      exact ⟨p, hp, by rw [key p hp]; simpa using hh⟩
  · intro ρ
    constructor
    · intro hh
      exact ⟨fun p hp => hh p ((h1 p).mp hp).1, fun p hp => hh p ((h2 p).mp hp).1⟩
    · rintro ⟨g1, g2⟩ p hp
      by_cases e : p.1 = n
      · exact g1 p ((h1 p).mpr ⟨hp, e⟩)
      · exact g2 p ((h2 p).mpr ⟨hp, e⟩)

example : ACond.Named [(c92x, 0)] [⟨c92x, [(some 3, some 5)], 0, 15⟩] := by
  intro p hp
  simp only [List.mem_singleton] at hp
  subst hp
  exact ⟨_, rfl, rfl⟩

end Pyv
