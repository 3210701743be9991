import Verif.Props.ARangeLists
/-
  C93: the active conditions of a signal.
-/
namespace Pyv

/-! ### Specification -/

/-- Some reported condition is true. -/
def SomeReported (h : AHeap) (ρ : Env) (cs : List ACond) : Prop := ∃ c ∈ cs, CondIs h ρ c

/-- The tree selects a value that passes the test. -/
def PicksValue (ρ : Env) (pick : DF → Py Bool) (tree : DF) : Prop := ∃ leaf, selectLeaf ρ tree = some leaf ∧ pick leaf = .ok true

/-- The condition lists of the values that pass the test are reset conditions only, or of the covered form (without the reset conditions). -/
def ListsCovered (isReset : DF → Bool) (width : ScopeChain → Py Nat) (pick : DF → Py Bool) (fd : FuncDict) : Prop :=
  ∀ e ∈ fd, pick e.2 = .ok true → (∀ c ∈ e.1, isReset c = true) ∨ listsOK width (removeResetCondlist isReset e.1) = true

/-- No signal is read twice on the way to a value that passes the test. -/
def ReadOnce (isReset : DF → Bool) (pick : DF → Py Bool) (fd : FuncDict) : Prop :=
  ∀ e ∈ fd, pick e.2 = .ok true → ((removeResetCondlist isReset e.1).flatMap DF.terms).Nodup

/-! ### Theorems -/

theorem activeRanges_ok {isReset width pick c t f cs h} {fd : FuncDict} (hf : split (.branch c t f) = .ok fd)
    (hx : activeRanges isReset width pick true (.branch c t f) = .ok (cs, h)) :
    ∃ ks, rangeKeys isReset pick fd = .ok ks ∧ inferConds width [] ks = .ok (cs, h) := by
  simp only [activeRanges, hf, ok_bind, reduceCtorEq, if_false, bind_ok] at hx
  exact hx

theorem listsReadable_keys {isReset width pick} {fd : FuncDict} {ks} (hl : ListsCovered isReset width pick fd)
    (hk : rangeKeys isReset pick fd = .ok ks) : ∀ l ∈ ks, l = [] ∨ listsOK width l = true := by
  intro l hm
  obtain ⟨e, he, hp, rfl⟩ := (rangeKeys_mem hk l).mp hm
  rcases hl e he hp with h | h
  · exact .inl (filter_reset_nil.mpr h)
  · exact .inr h

/-- **C93** Nothing is missed: if the tree of the signal selects a value that passes the test, some reported condition is true, outside reset
and for conditions of the covered form. -/
theorem C93_active_covers_partial (isReset : DF → Bool) (width : ScopeChain → Py Nat) (pick : DF → Py Bool) (ρ : Env) (c t f : DF) (fd : FuncDict)
    (cs : List ACond) (h : AHeap) (hw : InWidth ρ width) (hh : NoHollow (.branch c t f)) (hf : split (.branch c t f) = .ok fd)
    (hl : ListsCovered isReset width pick fd) (hout : ∀ e ∈ fd, (∀ c ∈ e.1, isReset c = true) → ¬ AllHold ρ e.1)
    (hx : activeRanges isReset width pick true (.branch c t f) = .ok (cs, h)) (hp : PicksValue ρ pick (.branch c t f)) : SomeReported h ρ cs := by
  obtain ⟨ks, hk, hi⟩ := activeRanges_ok hf hx
  obtain ⟨leaf, hs, hp⟩ := hp
  obtain ⟨k, hm, ha⟩ := (C18_split_selects ρ c t f fd hh hf leaf).mpr hs
  refine (inferConds_spec ks [] cs h (listsReadable_keys hl hk) hi).1 ρ hw ⟨removeResetCondlist isReset k, (rangeKeys_mem hk _).mpr ⟨_, hm, hp, rfl⟩, ?_, ?_⟩
  · intro he
    exact hout _ hm (filter_reset_nil.mp he) ha
  · intro c hc
    exact ha c (List.mem_filter.mp hc).1

/-- **C93** Nothing else is said: outside reset, for conditions of the covered form in which no signal is read twice, some reported condition
is true exactly when the tree of the signal selects a value that passes the test. -/
theorem C93_active_exact_partial (isReset : DF → Bool) (width : ScopeChain → Py Nat) (pick : DF → Py Bool) (ρ : Env) (c t f : DF) (fd : FuncDict)
    (cs : List ACond) (h : AHeap) (hw : InWidth ρ width) (hh : NoHollow (.branch c t f)) (hf : split (.branch c t f) = .ok fd)
    (hl : ListsCovered isReset width pick fd) (hn : ReadOnce isReset pick fd) (hout : OutOfReset isReset ρ fd)
    (hx : activeRanges isReset width pick true (.branch c t f) = .ok (cs, h)) : SomeReported h ρ cs ↔ PicksValue ρ pick (.branch c t f) := by
  refine ⟨?_, C93_active_covers_partial isReset width pick ρ c t f fd cs h hw hh hf hl hout.1 hx⟩
  intro hr
  obtain ⟨ks, hk, hi⟩ := activeRanges_ok hf hx
  obtain ⟨l, hm, hne, ha⟩ := (inferConds_spec ks [] cs h (listsReadable_keys hl hk) hi).2.1 (fun l hm => by
    obtain ⟨e, he, hp, rfl⟩ := (rangeKeys_mem hk l).mp hm
    exact hn e he hp) ρ hw hr
  obtain ⟨e, he, hp, rfl⟩ := (rangeKeys_mem hk l).mp hm
  refine ⟨e.2, (C18_split_selects ρ c t f fd hh hf e.2).mp ⟨e.1, he, ?_⟩, hp⟩
  intro d hd
  cases hd' : isReset d with
  | false => exact ha d (List.mem_filter.mpr ⟨hd, by simp [hd']⟩)
  | true =>
    refine hout.2 e he ?_ d hd hd'
    by_contra hno
    refine hne (filter_reset_nil.mpr fun c hc => ?_)
    cases hcc : isReset c with
    | true => rfl
    | false => exact absurd ⟨c, hc, hcc⟩ hno

/-- The functions of the tree other than the signal itself: what it takes when it changes. -/
def notItself (name : ScopeChain) : DF → Py Bool := fun f => .ok (decide (f ≠ .term name))

/-- **C93** The assigned functions: outside reset, for conditions of the covered form in which no signal is read twice, a reported condition with
the function `g` is true exactly when the tree of the signal selects `g`, and `g` is not the signal itself. -/
theorem C93_assignments_partial (isReset : DF → Bool) (width : ScopeChain → Py Nat) (name : ScopeChain) (ρ : Env) (c t f : DF) (fd : FuncDict)
    (ds : List (ACond × DF)) (h : AHeap) (hw : InWidth ρ width) (hh : NoHollow (.branch c t f)) (hf : split (.branch c t f) = .ok fd)
    (hl : ListsCovered isReset width (notItself name) fd) (hn : ReadOnce isReset (notItself name) fd) (hout : OutOfReset isReset ρ fd)
    (hx : changedAssignments isReset width name true (.branch c t f) = .ok (ds, h)) (g : DF) :
    (∃ k, (k, g) ∈ ds ∧ CondIs h ρ k) ↔ selectLeaf ρ (.branch c t f) = some g ∧ g ≠ .term name := by
  simp only [changedAssignments, hf, ok_bind, reduceCtorEq, if_false] at hx
  have hfrom : ∀ p ∈ changedDict isReset name fd [], ∃ e ∈ fd, e.2 ≠ .term name ∧ p = (removeResetCondlist isReset e.1, e.2) := by
    intro p hp
    rcases changedDict_from hp with h | h
    · cases h
    · exact h
  have hpick : ∀ {e : List DF × DF}, e.2 ≠ .term name → notItself name e.2 = .ok true := fun h => by simp [notItself, h]
  obtain ⟨hi, _⟩ := inferCondDict_spec (changedDict isReset name fd []) [] ds h (by
    intro p hp
    obtain ⟨e, he, hne, rfl⟩ := hfrom p hp
    rcases hl e he (hpick hne) with h | h
    · exact .inl (filter_reset_nil.mpr h)
    · exact .inr h) (by
    intro p hp
    obtain ⟨e, he, hne, rfl⟩ := hfrom p hp
    exact hn e he (hpick hne)) hx
  rw [hi ρ hw g]
  constructor
  · rintro ⟨l, hm, hne, ha⟩
    obtain ⟨e, he, hg, hp⟩ := hfrom _ hm
    simp only [Prod.mk.injEq] at hp
    obtain ⟨rfl, rfl⟩ := hp
    exact ⟨(C18_split_selects ρ c t f fd hh hf e.2).mp ⟨e.1, he, outOfReset_allHold hout he hne ha⟩, hg⟩
  · rintro ⟨hs, hg⟩
    obtain ⟨k, hm, ha⟩ := (C18_split_selects ρ c t f fd hh hf g).mpr hs
    have hne : removeResetCondlist isReset k ≠ [] := fun he => hout.1 _ hm (filter_reset_nil.mp he) ha
    have ha' : AllHold ρ (removeResetCondlist isReset k) := fun c hc => ha c (List.mem_filter.mp hc).1
    obtain ⟨g', hg'⟩ := (changedDict_has (isReset := isReset) (name := name) (fd := fd) (d := [])).2 (k, g) hm hg
    obtain ⟨e, he, _, hp⟩ := hfrom _ hg'
    simp only [Prod.mk.injEq] at hp
    obtain ⟨h1, rfl⟩ := hp
    have hall : AllHold ρ e.1 := outOfReset_allHold hout he (by rw [← h1]; exact hne) (by rw [← h1]; exact ha')
    have := C18_split_exclusive ρ _ fd hf _ _ hm he ha hall
    subst this
    exact ⟨_, hg', hne, ha'⟩

/-- **C93** A signal that is never assigned has no active conditions. -/
theorem C93_unbound (isReset : DF → Bool) (width : ScopeChain → Py Nat) (pick : DF → Py Bool) (tree : DF) :
    activeRanges isReset width pick false tree = .ok ([], []) := rfl

/-- **C93** is false for a signal that is assigned unconditionally: a tree that is no conditional has no active conditions, even if it is
the constant 1. -/
theorem C93_unconditional_false (isReset : DF → Bool) (width : ScopeChain → Py Nat) (pick : DF → Py Bool) (tree : DF) (h : ∀ c t f, tree ≠ .branch c t f) :
    activeRanges isReset width pick true tree = .ok ([], []) := by
  have hs : split tree = .ok [] := by
    cases tree <;> first | rfl | (exact absurd rfl (h _ _ _))
  simp [activeRanges, hs, ok_bind, rangeKeys, inferConds]

/-! ### Examples -/

/-- `if (r) y <= 0; else if (a && (n < 3 || m == 2)) y <= 1; else y <= y`. -/
def c93r : ScopeChain := [⟨['r'], .signal, none⟩]
def c93a : ScopeChain := [⟨['a'], .signal, none⟩]
def c93b : ScopeChain := [⟨['b'], .signal, none⟩]
def c93n : ScopeChain := [⟨['n'], .signal, none⟩]
def c93m : ScopeChain := [⟨['m'], .signal, none⟩]
def c93y : ScopeChain := [⟨['y'], .signal, none⟩]
def c93reset : DF → Bool := fun d => decide (d = .term c93r ∨ d = .op .ulnot [.term c93r])
def c93width : ScopeChain → Py Nat := fun n => if n = c93n ∨ n = c93m then .ok 4 else .ok 1
def c93k (c : Int) : DF := .evi c (some 32)
def c93cond : DF := .op .land [.term c93a, .op .lor [.op .lessThan [.term c93n, c93k 3], .op .eq [.term c93m, c93k 2]]]
def c93t : DF := .branch c93cond (c93k 1) (.term c93y)
def c93tree : DF := .branch (.term c93r) (c93k 0) c93t
def c93fd : FuncDict := [([.term c93r], c93k 0), ([.op .ulnot [.term c93r], c93cond], c93k 1),
  ([.op .ulnot [.term c93r], .op .ulnot [c93cond]], .term c93y)]
def c93ρ (r a n m : Int) : Env := ⟨fun s => if s = c93r then some (r, 1) else if s = c93a then some (a, 1) else if s = c93n then some (n, 4)
  else if s = c93m then some (m, 4) else some (0, 1), fun _ => none, 32⟩

example : split c93tree = .ok c93fd ∧ NoHollow c93tree := ⟨by decide +kernel, by simp [c93tree, c93t, NoHollow, HasLeaf, c93k, DF.evi]⟩

example : activeRanges c93reset c93width (activeConstant .gt 0 []) true c93tree = .ok ([[(c93n, 1), (c93a, 0)], [(c93m, 2), (c93a, 0)]],
    [⟨c93a, [(some 1, none)], 0, 1⟩, ⟨c93n, [(some 0, some 2)], 0, 15⟩, ⟨c93m, [(some 2, some 2)], 0, 15⟩]) := by decide +kernel

example : ListsCovered c93reset c93width (activeConstant .gt 0 []) c93fd ∧ ReadOnce c93reset (activeConstant .gt 0 []) c93fd := by
  constructor
  · unfold ListsCovered; decide +kernel
  · unfold ReadOnce; decide +kernel

theorem c93_inWidth {r a n m : Int} (h : (0 ≤ r ∧ r ≤ 1) ∧ (0 ≤ a ∧ a ≤ 1) ∧ (0 ≤ n ∧ n ≤ 15) ∧ 0 ≤ m ∧ m ≤ 15) : InWidth (c93ρ r a n m) c93width := by
  intro s w hw
  simp only [c93width] at hw
  split at hw
  · rename_i hs
    simp only [ok_inj] at hw
    subst hw
    rcases hs with rfl | rfl
    · exact ⟨n, 4, rfl, by omega, by omega⟩
    · exact ⟨m, 4, rfl, by omega, by omega⟩
  · rename_i hs
    simp only [ok_inj] at hw
    subst hw
    simp only [not_or] at hs
    simp only [c93ρ, if_neg hs.1, if_neg hs.2]
    split
    · exact ⟨r, 1, rfl, by omega, by omega⟩
    · split
      · exact ⟨a, 1, rfl, by omega, by omega⟩
      · exact ⟨0, 1, rfl, by omega, by omega⟩

example : InWidth (c93ρ 0 1 9 2) c93width := c93_inWidth (by omega)

example : OutOfReset c93reset (c93ρ 0 1 9 2) c93fd ∧ PicksValue (c93ρ 0 1 9 2) (activeConstant .gt 0 []) c93tree := by
  refine ⟨⟨?_, ?_⟩, c93k 1, by decide +kernel, by decide +kernel⟩
  · intro e he hr
    simp only [c93fd, List.mem_cons, List.not_mem_nil, or_false] at he
    rcases he with rfl | rfl | rfl
    · intro hh
      obtain ⟨x, hx, hne⟩ := hh _ (List.mem_singleton.mpr rfl)
      have : sem (c93ρ 0 1 9 2) (.term c93r) = some (0, 1) := by decide +kernel
      rw [this] at hx; cases hx; exact hne rfl
    · exact absurd (hr c93cond (by simp)) (by decide +kernel)
    · exact absurd (hr (.op .ulnot [c93cond]) (by simp)) (by decide +kernel)
  · intro e he _ r hr hrr
    have hd : ∀ d, c93reset d = true → d = .term c93r ∨ d = .op .ulnot [.term c93r] := fun d h => by simpa [c93reset] using h
    have hneg : Holds (c93ρ 0 1 9 2) (.op .ulnot [.term c93r]) := ⟨(1, 1), by decide +kernel, by decide⟩
    simp only [c93fd, List.mem_cons, List.not_mem_nil, or_false] at he
    rcases he with rfl | rfl | rfl
    · exfalso
      rename_i hx
      obtain ⟨c, hc, h⟩ := hx
      simp only [List.mem_singleton] at hc
      subst hc
      exact absurd h (by decide +kernel)
    · simp only [List.mem_cons, List.not_mem_nil, or_false] at hr
      rcases hr with rfl | rfl
      · exact hneg
      · exact absurd hrr (by decide +kernel)
    · simp only [List.mem_cons, List.not_mem_nil, or_false] at hr
      rcases hr with rfl | rfl
      · exact hneg
      · exact absurd hrr (by decide +kernel)

example : changedAssignments c93reset c93width c93y true c93tree = .ok ([([(c93n, 1), (c93a, 0)], c93k 1), ([(c93m, 2), (c93a, 0)], c93k 1)],
    [⟨c93a, [(some 1, none)], 0, 1⟩, ⟨c93n, [(some 0, some 2)], 0, 15⟩, ⟨c93m, [(some 2, some 2)], 0, 15⟩]) := by
  set_option maxSynthPendingDepth 5 in
  set_option synthInstance.maxSize 1000 in
  decide +kernel

example : ListsCovered c93reset c93width (notItself c93y) c93fd ∧ ReadOnce c93reset (notItself c93y) c93fd := by
  constructor
  · unfold ListsCovered; decide +kernel
  · unfold ReadOnce; decide +kernel

/-! ### Where it is false -/

/-- **C93** is false for conditions in general: `if (n != 3) y <= 1; else y <= y` is reported as active for `n = 3` (and only then). -/
def c93neq : DF := .branch (.op .notEq [.term c93n, c93k 3]) (c93k 1) (.term c93y)
theorem C93_active_exact_false : ¬ ∀ (isReset : DF → Bool) (width : ScopeChain → Py Nat) (pick : DF → Py Bool) (ρ : Env) (c t f : DF) (fd : FuncDict)
    (cs : List ACond) (h : AHeap), InWidth ρ width → NoHollow (.branch c t f) → split (.branch c t f) = .ok fd → OutOfReset isReset ρ fd →
    activeRanges isReset width pick true (.branch c t f) = .ok (cs, h) → (SomeReported h ρ cs ↔ PicksValue ρ pick (.branch c t f)) := by
  intro hall
  have := hall (fun _ => false) c93width (activeConstant .gt 0 []) (c93ρ 0 0 3 0) _ _ _ _ [[(c93n, 0)]] [⟨c93n, [(some 3, some 3)], 0, 15⟩]
    (c93_inWidth (by omega)) (by simp [c93neq, NoHollow, HasLeaf, c93k, c93y, DF.evi] : NoHollow c93neq) (rfl : split c93neq = _)
    ⟨by
      intro e he hr
      simp [addSide, Dict.set, c93k, c93y, DF.evi] at he
      rcases he with rfl | rfl <;> simp at hr, by simp⟩ (by decide +kernel)
  have hno : selectLeaf (c93ρ 0 0 3 0) c93neq = some (.term c93y) := by decide +kernel
  obtain ⟨leaf, h1, h2⟩ := this.mp ⟨[(c93n, 0)], by simp, by
    intro p hp
    simp only [List.mem_singleton] at hp
    subst hp
    exact ⟨_, rfl, 3, 4, rfl, _, List.mem_singleton.mpr rfl, ⟨3, rfl, by omega⟩, by simp⟩⟩
  rw [show DF.branch _ _ _ = c93neq from rfl, hno] at h1
  cases h1
  simp [activeConstant] at h2

/-- **C93** is false for `!=`: a signal compared with a constant by `!=` is reported to be active exactly when it equals the constant. -/
theorem C93_notEq_false (width : ScopeChain → Py Nat) (n : ScopeChain) (c : Int) (w : Nat) (hw : width n = .ok w) (h : AHeap) (o : Op)
    (ho : o = .notEq ∨ o = .notEql) : ∃ h', walkActive width (.op o [.term n, .evi c (some 32)]) h = .ok (some (.term h.length), h') ∧
      ∀ ρ x b, ρ.sig n = some (x, b) → (TermIs h' ρ n h.length ↔ x = c) := by
  refine ⟨h ++ [⟨n, [(some c, some c)], 0, maxVal w⟩], ?_, ?_⟩
  · rcases ho with rfl | rfl <;> simp [walkActive, walkCmp, rangeTerm, infer, hw, ok_bind]
  · intro ρ x b hx
    constructor
    · rintro ⟨t, ht, y, w', hy, q, hq, ⟨lo, e, h1⟩, h2⟩
      simp at ht
      subst ht
      simp only [List.mem_singleton] at hq
      subst hq
      rw [hx] at hy
      simp only [Option.some.injEq, Prod.mk.injEq] at hy e
      have := h2 c rfl
      omega
    · intro e
      exact ⟨⟨n, [(some c, some c)], 0, maxVal w⟩, by simp, x, b, hx, (some c, some c), List.mem_singleton.mpr rfl, ⟨c, rfl, by omega⟩,
        by intro hi h; simp only [Option.some.injEq] at h; omega⟩

example : c93width c93n = .ok 4 := by decide +kernel

/-- **C93** is false for `<=`: a comparison of a signal with anything by `<=` (or of anything by `>=` with a signal on the right) raises
FormatError. -/
theorem C93_lessEq_raises (width : ScopeChain → Py Nat) (n : ScopeChain) (c : Int) (h : AHeap) :
    walkActive width (.op .lessEq [.term n, .evi c (some 32)]) h = .error .format ∧
    walkActive width (.op .greaterEq [.evi c (some 32), .term n]) h = .error .format := by
  constructor <;> simp [walkActive, walkCmp, rangeTerm, infer, Op.swapped] <;> rfl

/-- **C93** is false for the comparison of two signals: it raises FormatError. -/
theorem C93_signals_raise (width : ScopeChain → Py Nat) (n m : ScopeChain) (h : AHeap) (o : Op) (ho : o ∈ [Op.eq, .notEq, .lessThan, .greaterThan, .lessEq, .greaterEq]) :
    walkActive width (.op o [.term n, .term m]) h = .error .format := by
  simp only [List.mem_cons, List.not_mem_nil, or_false] at ho
  rcases ho with rfl | rfl | rfl | rfl | rfl | rfl <;> simp [walkActive, walkCmp, rangeTerm, infer] <;> rfl

/-- **C93** is false for a negated disjunction: the walk finds no condition in `!(l || r)`, so that nothing is reported for a list that
begins and ends with it. -/
theorem C93_not_or_false (width : ScopeChain → Py Nat) (l r : DF) (h : AHeap) (x : Option AC) (h' : AHeap) (hl : ∃ k, rangeKind width l = some k)
    (hr : ∃ k, rangeKind width r = some k) (hx : walkActive width (.op .ulnot [.op .lor [l, r]]) h = .ok (x, h')) : x = none := by
  obtain ⟨k, hl⟩ := hl
  obtain ⟨k', hr⟩ := hr
  rw [walkActive] at hx
  simp only [true_or, if_true, bind_ok] at hx
  obtain ⟨⟨a, h1⟩, ha, hx⟩ := hx
  obtain ⟨a, rfl, d, _⟩ := walkActive_denotes (.op .lor [l, r]) h a h1 .list (by simp [rangeKind, hl, hr]) ha
  have hk := d.kind
  cases a with
  | list cs =>
    match cs, hx with
    | [], hx => simp [activeNot] at hx; exact hx.1.symm
    | [_], hx => simp [activeNot] at hx; exact hx.1.symm
    | _ :: _ :: _, hx =>
      simp only [activeNot, bind_ok, ok_inj, Prod.mk.injEq] at hx
      obtain ⟨_, _, hx, _⟩ := hx
      exact hx.symm
  | _ => simp [AC.kind] at hk

example : walkActive c93width (.op .ulnot [.op .lor [.term c93a, .op .eq [.term c93m, c93k 2]]]) [] =
    .ok (none, [⟨c93a, [(some 0, some 0)], 0, 1⟩, ⟨c93m, [(some 0, some 1), (some 3, some 15)], 0, 15⟩]) := by decide +kernel

/-- **C93** is false for signals that are read twice: in `(b && n < 9) && (n == 2 || n == 3)`, the term of `n` on the left is shared by both
conditions of the disjunction; it loses first all values but 2, then also that one, and without values it is left out of both: `b` alone is
reported, for every `n`. -/
def c93shared : DF := .branch (.op .land [.op .land [.term c93b, .op .lessThan [.term c93n, c93k 9]],
  .op .lor [.op .eq [.term c93n, c93k 2], .op .eq [.term c93n, c93k 3]]]) (c93k 1) (.term c93y)
theorem C93_shared_false : activeRanges (fun _ => false) c93width (activeConstant .gt 0 []) true c93shared =
      .ok ([[(c93b, 0)], [(c93b, 0)]], [⟨c93b, [(some 1, none)], 0, 1⟩, ⟨c93n, [], 0, 15⟩, ⟨c93n, [(some 2, some 2)], 0, 15⟩, ⟨c93n, [(some 3, some 3)], 0, 15⟩]) := by
  decide +kernel

/-- **C93** is false for operands that are not understood: `a || n[0]` is reported as `a` alone, so that the signal is active (`n = 1`) while
no reported condition is true. -/
def c93or : DF := .branch (.op .lor [.term c93a, .psel (.term c93n) (c93k 0) (c93k 0)]) (c93k 1) (.term c93y)
theorem C93_or_unknown_false : activeRanges (fun _ => false) c93width (activeConstant .gt 0 []) true c93or =
      .ok ([[(c93a, 0)]], [⟨c93a, [(some 1, none)], 0, 1⟩]) ∧
    PicksValue (c93ρ 0 0 1 0) (activeConstant .gt 0 []) c93or ∧ ¬ TermIs [⟨c93a, [(some 1, none)], 0, 1⟩] (c93ρ 0 0 1 0) c93a 0 := by
  refine ⟨by decide +kernel, ⟨c93k 1, by decide +kernel, by decide +kernel⟩, ?_⟩
  rintro ⟨t, ht, x, w, hx, p, hp, ⟨lo, h1, h2⟩, _⟩
  simp only [List.getElem?_cons_zero, Option.some.injEq] at ht
  subst ht
  simp only [List.mem_singleton] at hp
  subst hp
  simp only [Option.some.injEq] at h1
  subst h1
  have : (c93ρ 0 0 1 0).sig c93a = some (0, 1) := by decide +kernel
  rw [this] at hx
  cases hx
  omega

/-- **C93** is false for `&` between wide signals: `n & m` is read as `n > 0 && m > 0`, which is true for `n = 1`, `m = 2`. -/
def c93and : DF := .branch (.op .and [.term c93n, .term c93m]) (c93k 1) (.term c93y)
theorem C93_wide_and_false : activeRanges (fun _ => false) c93width (activeConstant .gt 0 []) true c93and =
      .ok ([[(c93n, 0), (c93m, 1)]], [⟨c93n, [(some 1, none)], 0, 15⟩, ⟨c93m, [(some 1, none)], 0, 15⟩]) ∧
    selectLeaf (c93ρ 0 0 1 2) c93and = some (.term c93y) := by
  constructor <;> decide +kernel

/-- **C93** is false for contradictions: `n < 3 && n == 5 && a` is reported as `a`, because the term of `n` without values is left out. -/
def c93never : DF := .branch (.op .land [.op .land [.op .lessThan [.term c93n, c93k 3], .op .eq [.term c93n, c93k 5]], .term c93a]) (c93k 1) (.term c93y)
theorem C93_contradiction_false : activeRanges (fun _ => false) c93width (activeConstant .gt 0 []) true c93never =
      .ok ([[(c93a, 2)]], [⟨c93n, [], 0, 15⟩, ⟨c93n, [(some 5, some 5)], 0, 15⟩, ⟨c93a, [(some 1, none)], 0, 1⟩]) := by decide +kernel

/-- **C93** A range on a signal that occurs twice, one of them without an upper bound, raises TypeError: `n > 2 && n < 9`. -/
def c93between : DF := .branch (.op .land [.op .greaterThan [.term c93n, c93k 2], .op .lessThan [.term c93n, c93k 9]]) (c93k 1) (.term c93y)
theorem C93_between_raises : activeRanges (fun _ => false) c93width (activeConstant .gt 0 []) true c93between = .error .type := by decide +kernel

end Pyv
