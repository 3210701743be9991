import Verif.Props.NbModule
/-
  C59: the clock and the reset of an always block.  C60: the declaration a name refers to.
-/
namespace Pyv

/-! ### C59, specification -/

/-- The events of a sensitivity list with the name and the bit of their signal. -/
def eventsOf : List Sens → Py (List (Str × Int × Str))
  | [] => .ok []
  | l :: ls =>
    match l.sig with
    | none => eventsOf ls
    | some e => do
      let nb ← Sens.nameBit e
      let rest ← eventsOf ls
      .ok ((nb.1, nb.2, l.type) :: rest)

/-- The last element that satisfies a test. -/
def lastWith {α : Type} (q : α → Bool) (l : List α) : Option α := l.reverse.find? q

/-- A clock event. -/
def isClockEvent (e : Str × Int × Str) : Bool := isClockName e.1

/-- A reset event: a name that is both counts as a clock. -/
def isResetEvent (e : Str × Int × Str) : Bool := !isClockName e.1 && isResetName e.1

/-- Neither. -/
def isOtherEvent (e : Str × Int × Str) : Bool := !isClockName e.1 && !isResetName e.1

/-- `info` describes the events, with the names looked up by `look`. -/
structure Describes (look : Str → Py (Option ScopeChain)) (es : List (Str × Int × Str)) (info : AlwaysInfo) : Prop where
  noClock : lastWith isClockEvent es = none → info.clockName = none ∧ info.clockEdge = none ∧ info.clockBit = none
  clock : ∀ n b ty, lastWith isClockEvent es = some (n, b, ty) →
    look n = .ok info.clockName ∧ info.clockEdge = some ty ∧ info.clockBit = some b
  noReset : lastWith isResetEvent es = none → info.resetName = none ∧ info.resetEdge = none ∧ info.resetBit = none
  reset : ∀ n b ty, lastWith isResetEvent es = some (n, b, ty) →
    look n = .ok info.resetName ∧ info.resetEdge = some ty ∧ info.resetBit = some b

theorem lastWith_snoc {α : Type} (q : α → Bool) (l : List α) (a : α) :
    lastWith q (l ++ [a]) = if q a then some a else lastWith q l := by
  simp only [lastWith, List.reverse_append, List.reverse_cons, List.reverse_nil, List.nil_append, List.singleton_append, List.find?_cons]
  cases q a <;> rfl

/-- The folded description after a prefix of the events. -/
theorem fold_describes (s : BV) (scope : ScopeChain) (ls : List Sens) : ∀ (es0 : List (Str × Int × Str)) (st r : AlwaysInfo × Nat)
    (es : List (Str × Int × Str)), Describes (fun n => s.searchTerminal n scope) es0 st.1 → st.2 = (es0.filter isOtherEvent).length →
    eventsOf ls = .ok es → ls.foldlM (s.sensStep scope) st = .ok r →
    Describes (fun n => s.searchTerminal n scope) (es0 ++ es) r.1 ∧ r.2 = ((es0 ++ es).filter isOtherEvent).length := by
  induction ls with
  | nil =>
    intro es0 st r es hd hn he h
    simp only [eventsOf, ok_inj] at he
    subst he
    simp only [List.foldlM_nil, py_pure, ok_inj] at h
    subst h
    simpa using ⟨hd, hn⟩
  | cons l ls ih =>
    intro es0 st r es hd hn he h
    simp only [List.foldlM_cons, bind_ok] at h
    obtain ⟨st1, h1, h⟩ := h
    simp only [eventsOf] at he
    simp only [BV.sensStep] at h1
    cases hsig : l.sig with
    | none =>
      simp only [hsig, ok_inj] at he h1
      subst h1
      exact ih es0 _ r es hd hn he h
    | some e =>
      simp only [hsig, bind_ok, ok_inj] at he h1
      obtain ⟨nb, hnb, rest, hrest, rfl⟩ := he
      obtain ⟨nb', hnb', h1⟩ := h1
      rw [hnb] at hnb'
      cases hnb'
      rw [show es0 ++ (nb.1, nb.2, l.type) :: rest = (es0 ++ [(nb.1, nb.2, l.type)]) ++ rest by simp]
      refine ih _ st1 r rest ?_ ?_ hrest h
      · by_cases hc : isClockName nb.1 = true
        · simp only [hc, if_true, bind_ok, ok_inj] at h1
          obtain ⟨t, ht, rfl⟩ := h1
          constructor
          · intro hl; simp [lastWith_snoc, isClockEvent, hc] at hl
          · intro n b ty hl
            simp only [lastWith_snoc, isClockEvent, hc, if_true, Option.some.injEq, Prod.mk.injEq] at hl
            obtain ⟨rfl, rfl, rfl⟩ := hl
            exact ⟨ht, rfl, rfl⟩
          · intro hl
            exact hd.noReset (by simpa [lastWith_snoc, isResetEvent, hc] using hl)
          · intro n b ty hl
            exact hd.reset n b ty (by simpa [lastWith_snoc, isResetEvent, hc] using hl)
        · simp only [hc, if_false, Bool.false_eq_true] at h1
          by_cases hr : isResetName nb.1 = true
          · simp only [hr, if_true, bind_ok, ok_inj] at h1
            obtain ⟨t, ht, rfl⟩ := h1
            constructor
            · intro hl
              exact hd.noClock (by simpa [lastWith_snoc, isClockEvent, hc] using hl)
            · intro n b ty hl
              exact hd.clock n b ty (by simpa [lastWith_snoc, isClockEvent, hc] using hl)
            · intro hl; simp [lastWith_snoc, isResetEvent, hc, hr] at hl
            · intro n b ty hl
              simp only [lastWith_snoc, isResetEvent, hc, hr, Bool.not_false, Bool.and_self, if_true, Option.some.injEq, Prod.mk.injEq] at hl
              obtain ⟨rfl, rfl, rfl⟩ := hl
              exact ⟨ht, rfl, rfl⟩
          · simp only [hr, if_false, Bool.false_eq_true, ok_inj] at h1
            subst h1
            constructor
            · intro hl
              exact hd.noClock (by simpa [lastWith_snoc, isClockEvent, hc] using hl)
            · intro n b ty hl
              exact hd.clock n b ty (by simpa [lastWith_snoc, isClockEvent, hc] using hl)
            · intro hl
              exact hd.noReset (by simpa [lastWith_snoc, isResetEvent, hc, hr] using hl)
            · intro n b ty hl
              exact hd.reset n b ty (by simpa [lastWith_snoc, isResetEvent, hc, hr] using hl)
      · by_cases hc : isClockName nb.1 = true
        · simp only [hc, if_true, bind_ok, ok_inj] at h1
          obtain ⟨t, -, rfl⟩ := h1
          simp [List.filter_append, isOtherEvent, hc, hn]
        · simp only [hc, if_false, Bool.false_eq_true] at h1
          by_cases hr : isResetName nb.1 = true
          · simp only [hr, if_true, bind_ok, ok_inj] at h1
            obtain ⟨t, -, rfl⟩ := h1
            simp [List.filter_append, isOtherEvent, hc, hr, hn]
          · simp only [hr, if_false, Bool.false_eq_true, ok_inj] at h1
            subst h1
            simp [List.filter_append, isOtherEvent, hc, hr, hn]

/-- The fold succeeds when the names can be looked up. -/
theorem fold_total (s : BV) (scope : ScopeChain) (hl : ∀ n, ∃ t, s.searchTerminal n scope = .ok t) (ls : List Sens) :
    ∀ (es : List (Str × Int × Str)) (st : AlwaysInfo × Nat), eventsOf ls = .ok es → ∃ r, ls.foldlM (s.sensStep scope) st = .ok r := by
  induction ls with
  | nil => intro es st _; exact ⟨st, rfl⟩
  | cons l ls ih =>
    intro es st he
    simp only [eventsOf] at he
    simp only [List.foldlM_cons]
    cases hsig : l.sig with
    | none =>
      simp only [hsig] at he
      obtain ⟨r, hr⟩ := ih es st he
      exact ⟨r, by simp only [BV.sensStep, hsig, ok_bind, hr]⟩
    | some e =>
      simp only [hsig, bind_ok, ok_inj] at he
      obtain ⟨nb, hnb, rest, hrest, rfl⟩ := he
      obtain ⟨t, ht⟩ := hl nb.1
      have hstep : ∃ st1, s.sensStep scope st l = .ok st1 := by
        simp only [BV.sensStep, hsig, hnb, ok_bind]
        by_cases hc : isClockName nb.1 = true
        · simp [hc, ht, ok_bind]
        · by_cases hr : isResetName nb.1 = true <;> simp [hc, hr, ht, ok_bind]
      obtain ⟨st1, h1⟩ := hstep
      obtain ⟨r, hr⟩ := ih rest st1 hrest
      exact ⟨r, by simp only [h1, ok_bind, hr]⟩

/-- **C59** The clock of an always block is its last event on a signal whose name says clock, the reset its last event on
a signal whose name says reset (and not clock), with edge, bit and declaration; a block with neither has no clock and no
reset.  A block with a clock or a reset and an event on any other signal is refused. -/
theorem C59_clock_and_reset (s : BV) (scope : ScopeChain) (ls : List Sens) (es : List (Str × Int × Str)) (he : eventsOf ls = .ok es)
    (hl : ∀ n, ∃ t, s.searchTerminal n scope = .ok t) :
    (((es.any isClockEvent || es.any isResetEvent) && es.any isOtherEvent) = true → s.alwaysInfo scope ls = .error .format) ∧
    (((es.any isClockEvent || es.any isResetEvent) && es.any isOtherEvent) = false →
      ∃ info, s.alwaysInfo scope ls = .ok info ∧ Describes (fun n => s.searchTerminal n scope) es info) := by
  obtain ⟨r, hr⟩ := fold_total s scope hl ls es (({} : AlwaysInfo), 0) he
  obtain ⟨hd, hn⟩ := fold_describes s scope ls [] (({} : AlwaysInfo), 0) r es
    ⟨fun _ => ⟨rfl, rfl, rfl⟩, fun _ _ _ h => by simp [lastWith] at h, fun _ => ⟨rfl, rfl, rfl⟩, fun _ _ _ h => by simp [lastWith] at h⟩
    rfl he hr
  rw [List.nil_append] at hd hn
  have key : ∀ (q : Str × Int × Str → Bool), (lastWith q es).isSome = es.any q := by
    intro q
    rw [lastWith, Bool.eq_iff_iff, List.find?_isSome]
    simp
  have hc : r.1.clockEdge.isSome = es.any isClockEvent := by
    rw [← key]
    cases h : lastWith isClockEvent es with
    | none => simp [(hd.noClock h).2.1]
    | some e => obtain ⟨n, b, ty⟩ := e; simp [(hd.clock n b ty h).2.1]
  have hrs : r.1.resetEdge.isSome = es.any isResetEvent := by
    rw [← key]
    cases h : lastWith isResetEvent es with
    | none => simp [(hd.noReset h).2.1]
    | some e => obtain ⟨n, b, ty⟩ := e; simp [(hd.reset n b ty h).2.1]
  have ho : decide (r.2 > 0) = es.any isOtherEvent := by
    rw [hn, Bool.eq_iff_iff]
    simp [List.length_pos_iff_exists_mem]
  have e1 : s.alwaysInfo scope ls = if (es.any isClockEvent || es.any isResetEvent) && es.any isOtherEvent then .error .format else .ok r.1 := by
    simp only [BV.alwaysInfo, hr, ok_bind, hc, hrs, ho]
  rw [e1]
  exact ⟨fun h => by rw [if_pos h], fun h => ⟨r.1, by rw [h]; rfl, hd⟩⟩

/-- `always @(posedge clk or negedge rst)`. -/
example : eventsOf c58clk = .ok [("clk".toList, 0, "posedge".toList), ("rst".toList, 0, "negedge".toList)] ∧
    (c58s.alwaysInfo c58m c58clk).toOption = some c58info ∧ (∀ n, ∃ t, c58s.searchTerminal n c58m = .ok t) :=
  ⟨rfl, by decide +kernel, fun n => ⟨_, search_mod (by decide) (m := { previous := [], isModule := true }) rfl rfl n⟩⟩

/-- A name says clock by its letters only: an edge of a signal named otherwise is not a clock, and the block counts as
combinational. -/
theorem C59_edge_false : ∃ info, c58s.alwaysInfo c58m [⟨some (c58i "a"), "posedge".toList⟩] = .ok info ∧ info.clockEdge = none :=
  ⟨{}, rfl, rfl⟩

/-! ### C60 -/

/-- The scopes around a scope, innermost first, up to the module (or up to the top without a module). -/
def around (s : BV) : Nat → ScopeChain → List ScopeChain
  | 0, _ => []
  | k + 1, c => if c = [] then [] else
      c :: (match s.frames.get? c with | some f => if f.isModule then [] else around s k c.dropLast | none => [])

/-- **C60** A name refers to its declaration in the innermost enclosing scope that declares it; the search ends at the
module. -/
theorem C60_nearest_declaration (s : BV) (n : Str) (scope : ScopeChain) (r : Option ScopeChain)
    (h : s.searchTerminal n scope = .ok r) :
    r = ((around s scope.length scope).map (· ++ [⟨n, .signal, none⟩])).find? (fun c => s.terms.has c) := by
  generalize hk : scope.length = k
  induction k generalizing scope with
  | zero =>
    have : scope = [] := List.length_eq_zero_iff.mp hk
    subst this
    rw [BV.searchTerminal] at h
    simp only [dif_pos, ok_inj] at h
    subst h; rfl
  | succ k ih =>
    have hne : scope ≠ [] := by rintro rfl; simp at hk
    rw [BV.searchTerminal, dif_neg hne] at h
    simp only [around, if_neg hne, List.map_cons, List.find?_cons]
    split at h
    · rename_i ht
      simp only [ok_inj] at h
      subst h
      rw [ht]
    · rename_i ht
      simp only [Bool.not_eq_true] at ht
      rw [ht]
      simp only [bind_ok] at h
      obtain ⟨f, hf, h⟩ := h
      rw [frame_get hf]
      simp only
      split at h
      · rename_i hm
        simp only [ok_inj] at h
        subst h
        simp [hm]
      · rename_i hm
        rw [if_neg hm]
        exact ih scope.dropLast h (by simp [hk])

/-- Signals declared outside the module are not visible in it. -/
theorem C60_module_boundary (s : BV) (n : Str) (scope : ScopeChain) (m : Frame) (hne : scope ≠ []) (hf : s.frames.get? scope = some m)
    (hm : m.isModule = true) (ht : s.terms.has (scope ++ [⟨n, .signal, none⟩]) = false) : s.searchTerminal n scope = .ok none := by
  rw [BV.searchTerminal, dif_neg hne, if_neg (by simp [ht])]
  simp [frame_ok hf, ok_bind, hm]

/-- A block inside the module sees the signals of the module. -/
example : (({ c58s with frames := (c58m ++ [⟨"always0".toList, .always, none⟩], { previous := c58m, isAlways := true }) :: c58s.frames } : BV).searchTerminal
    "a".toList (c58m ++ [⟨"always0".toList, .always, none⟩])).toOption = some (some (c58n "a")) := by decide +kernel

end Pyv
