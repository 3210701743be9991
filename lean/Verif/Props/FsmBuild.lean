import Verif.Props.FsmLoops
import Verif.Props.TransitionProps
/-
  C27, C47, C48: construction of the state machine.
-/
namespace Pyv

/-! ### Specification -/

/-- The next state recorded for source `s` under condition `c`. -/
def Fsm.next? (m : Fsm) (s : Int) (c : Option DF) : Option Int := (m.fsm.get? s).bind (fun d => Dict.get? d c)

/-- A `construct` call (destination, node) covers source `s` and condition `c`. -/
def Covers (s : Int) (c : Option DF) (call : Int × SNode) : Prop := call.2.tc = c ∧ InRanges s call.2.ranges

/-- The condition of a transition holds (no condition always does). -/
def CondHolds (ρ : Env) : Option DF → Prop
  | none => True
  | some c => Holds ρ c

/-! ### construct -/

theorem mem_intRange {a b x : Int} : x ∈ intRange a b ↔ a ≤ x ∧ x ≤ b := by
  simp only [intRange, List.mem_map, List.mem_range]
  constructor
  · rintro ⟨i, hi, rfl⟩; omega
  · rintro ⟨h1, h2⟩; exact ⟨(x - a).toNat, by omega, by omega⟩

theorem addOne_next (d : Dict Int DstDict) (src dst s : Int) (cond c : Option DF) :
    ((Fsm.addOne d src dst cond).get? s).bind (fun d => Dict.get? d c) =
      if s = src ∧ c = cond then some dst else (d.get? s).bind (fun d => Dict.get? d c) := by
  unfold Fsm.addOne
  rw [Dict.get?_set]
  by_cases h : src = s
  · subst h
    simp only [if_true, Option.bind_some, Dict.get?_set, true_and]
    by_cases h2 : cond = c
    · subst h2; simp
    · rw [if_neg h2, if_neg (fun e => h2 e.symm)]
      cases Dict.get? d src <;> simp [Dict.get?_nil]
  · rw [if_neg h, if_neg (fun e => h e.1.symm)]

theorem addLoop_next (l : List Int) (dst s : Int) (cond c : Option DF) : ∀ d : Dict Int DstDict,
    ((l.foldl (fun d src => Fsm.addOne d src dst cond) d).get? s).bind (fun d => Dict.get? d c) =
      if s ∈ l ∧ c = cond then some dst else (d.get? s).bind (fun d => Dict.get? d c) := by
  induction l with
  | nil => intro d; simp
  | cons x l ih =>
    intro d
    rw [List.foldl_cons, ih, addOne_next]
    by_cases h1 : s ∈ l <;> by_cases h2 : c = cond <;> by_cases h3 : s = x <;> simp [h1, h2, h3]

theorem add_next (m : Fsm) (rp : Int × Int) (dst s : Int) (cond c : Option DF) :
    (m.add rp dst cond).next? s c = if (rp.1 ≤ s ∧ s ≤ rp.2) ∧ c = cond then some dst else m.next? s c := by
  unfold Fsm.next? Fsm.add
  simp only [addLoop_next, mem_intRange]

open Classical in
theorem construct_next (m : Fsm) (dst s : Int) (n : SNode) (c : Option DF) :
    (m.construct dst n).next? s c = if Covers s c (dst, n) then some dst else m.next? s c := by
  have key : ∀ (l : List (Int × Int)) (m : Fsm), (l.foldl (fun m rp => m.add rp dst n.tc) m).next? s c =
      if InRanges s l ∧ c = n.tc then some dst else m.next? s c := by
    intro l
    induction l with
    | nil => intro m; simp [InRanges]
    | cons rp l ih =>
      intro m
      rw [List.foldl_cons, ih, add_next]
      have : InRanges s (rp :: l) ↔ (rp.1 ≤ s ∧ s ≤ rp.2) ∨ InRanges s l := by simp [InRanges]
      rw [this]
      by_cases h1 : InRanges s l <;> by_cases h2 : c = n.tc <;> by_cases h3 : rp.1 ≤ s ∧ s ≤ rp.2 <;> simp [h1, h2, h3]
  unfold Fsm.construct
  rw [key]
  have e : (if n.isany = true then m.addAny dst n.tc else m).next? s c = m.next? s c := by
    split <;> rfl
  rw [e]
  congr 1
  simp only [Covers, eq_iff_iff]
  constructor
  · rintro ⟨a, b⟩; exact ⟨b.symm, a⟩
  · rintro ⟨a, b⟩; exact ⟨b, a.symm⟩

open Classical in
/-- **C27** After any sequence of `construct` calls, the next state recorded for a source and a condition is the
destination of the last call that covers them (none when no call does). -/
theorem C27_construct (calls : List (Int × SNode)) (s : Int) (c : Option DF) :
    (calls.foldl (fun m call => m.construct call.1 call.2) ({} : Fsm)).next? s c =
      ((calls.filter (fun call => decide (Covers s c call))).getLast?).map (·.1) := by
  have key : ∀ m : Fsm, (calls.foldl (fun m call => m.construct call.1 call.2) m).next? s c =
      (((calls.filter (fun call => decide (Covers s c call))).getLast?).map (·.1)).or (m.next? s c) := by
    induction calls with
    | nil => intro m; simp
    | cons call calls ih =>
      intro m
      rw [List.foldl_cons, ih, construct_next]
      by_cases h : Covers s c call
      · simp only [h, if_true, List.filter_cons, decide_true]
        generalize calls.filter (fun call => decide (Covers s c call)) = l
        cases l with
        | nil => simp
        | cons x l =>
          rw [List.getLast?_cons_cons]
          cases hl : (x :: l).getLast? with
          | none => simp at hl
          | some z => simp
      · simp only [h, if_false, List.filter_cons, decide_false, Bool.false_eq_true]
  rw [key]
  simp [Fsm.next?, Dict.get?_nil]

theorem construct_any (m : Fsm) (dst : Int) (n : SNode) (c : Option DF) :
    Dict.get? (m.construct dst n).any c = if n.isany = true ∧ n.tc = c then some dst else Dict.get? m.any c := by
  have key : ∀ (l : List (Int × Int)) (m : Fsm), (l.foldl (fun m rp => m.add rp dst n.tc) m).any = m.any := by
    intro l
    induction l with
    | nil => intro m; rfl
    | cons rp l ih => intro m; rw [List.foldl_cons, ih]; rfl
  unfold Fsm.construct
  rw [key]
  by_cases h : n.isany = true
  · simp only [h, if_true, Fsm.addAny, Dict.get?_set, true_and]
  · simp [h]

/-- **C27** The same for the transitions taken from any state. -/
theorem C27_construct_any (calls : List (Int × SNode)) (c : Option DF) :
    Dict.get? (calls.foldl (fun m call => m.construct call.1 call.2) ({} : Fsm)).any c =
      ((calls.filter (fun call => call.2.isany && decide (call.2.tc = c))).getLast?).map (·.1) := by
  have key : ∀ m : Fsm, Dict.get? (calls.foldl (fun m call => m.construct call.1 call.2) m).any c =
      (((calls.filter (fun call => call.2.isany && decide (call.2.tc = c))).getLast?).map (·.1)).or (Dict.get? m.any c) := by
    induction calls with
    | nil => intro m; simp
    | cons call calls ih =>
      intro m
      rw [List.foldl_cons, ih, construct_any]
      by_cases h : call.2.isany = true ∧ call.2.tc = c
      · simp only [h, and_self, if_true, List.filter_cons, decide_true, Bool.and_self]
        generalize calls.filter (fun call => call.2.isany && decide (call.2.tc = c)) = l
        cases l with
        | nil => simp
        | cons x l =>
          rw [List.getLast?_cons_cons]
          cases hl : (x :: l).getLast? with
          | none => simp at hl
          | some z => simp
      · have h' : (call.2.isany && decide (call.2.tc = c)) = false := by
          rw [Bool.and_eq_false_iff]
          by_cases hh : call.2.isany = true
          · right; simp; exact fun e => h ⟨hh, e⟩
          · left; simpa using hh
        simp only [h, if_false, List.filter_cons, h', Bool.false_eq_true]
  rw [key]
  simp [Dict.get?_nil]

/-! ### resolve -/

/-- Under the valuation, state table `d` allows the next state `x`. -/
def Allows (ρ : Env) (d : DstDict) (x : Int) : Prop := ∃ c, (c, x) ∈ d ∧ CondHolds ρ c

theorem holds_lor2 {ρ : Env} {a b : DF} (ha : Defined ρ a) (hb : Defined ρ b) :
    Holds ρ (.op .lor [a, b]) ↔ Holds ρ a ∨ Holds ρ b := holds_or (.inr rfl) ha hb

theorem joinConds_spec {ρ : Env} {opt : DF → Py DF}
    (hopt : ∀ c r, Defined ρ c → opt c = .ok r → Defined ρ r ∧ (Holds ρ r ↔ Holds ρ c)) :
    ∀ (l : List (Option DF × Int)) (d j : Dict Int (Option DF)), joinConds opt l d = .ok j →
    (∀ e ∈ l, ∀ c, e.1 = some c → Defined ρ c) → (∀ x c, d.get? x = some (some c) → Defined ρ c) →
    (∀ x c, j.get? x = some (some c) → Defined ρ c) ∧
    (∀ x, (∃ c, j.get? x = some c) ↔ (∃ c, d.get? x = some c) ∨ ∃ e ∈ l, e.2 = x) ∧
    ∀ x, (∃ c, j.get? x = some c ∧ CondHolds ρ c) ↔
      (∃ c, d.get? x = some c ∧ CondHolds ρ c) ∨ ∃ e ∈ l, e.2 = x ∧ CondHolds ρ e.1 := by
  intro l
  induction l with
  | nil =>
    intro d j h _ hd
    simp [joinConds] at h; subst h
    simp; exact hd
  | cons e l ih =>
    intro d j h hl hd
    obtain ⟨cond, dst⟩ := e
    have hl' : ∀ e ∈ l, ∀ c, e.1 = some c → Defined ρ c := fun e he => hl e (by simp [he])
    simp only [joinConds] at h
    -- a step that replaces the condition of `dst` by `c'`
    have step : ∀ c' : Option DF, joinConds opt l (d.set dst c') = .ok j → (∀ c, c' = some c → Defined ρ c) →
        ((CondHolds ρ c') ↔ (∃ c, d.get? dst = some c ∧ CondHolds ρ c) ∨ CondHolds ρ cond) →
        (∀ x c, j.get? x = some (some c) → Defined ρ c) ∧
        (∀ x, (∃ c, j.get? x = some c) ↔ (∃ c, d.get? x = some c) ∨ ∃ e ∈ (cond, dst) :: l, e.2 = x) ∧
        ∀ x, (∃ c, j.get? x = some c ∧ CondHolds ρ c) ↔
          (∃ c, d.get? x = some c ∧ CondHolds ρ c) ∨ ∃ e ∈ (cond, dst) :: l, e.2 = x ∧ CondHolds ρ e.1 := by
      intro c' h hdc hc
      obtain ⟨a, b, c⟩ := ih _ _ h hl' (by
        intro x y hx
        rw [Dict.get?_set] at hx
        split at hx
        · simp at hx; exact hdc y hx
        · exact hd x y hx)
      refine ⟨a, ?_, ?_⟩
      · intro x
        rw [b, Dict.get?_set]
        by_cases hx : dst = x
        · subst hx; simp
        · simp [hx]
      · intro x
        rw [c, Dict.get?_set]
        by_cases hx : dst = x
        · subst hx
          simp only [if_true, Option.some.injEq, exists_eq_left', hc, List.mem_cons, exists_eq_or_imp, true_and, or_assoc]
        · simp [hx]
    cases hg : d.get? dst with
    | none =>
      simp only [hg] at h
      refine step cond h (fun c e => hl (cond, dst) (by simp) c e) (by simp [hg])
    | some cur =>
      cases cur with
      | none =>
        simp only [hg] at h
        obtain ⟨a, b, c⟩ := ih _ _ h hl' hd
        refine ⟨a, ?_, ?_⟩
        · intro x
          rw [b]
          by_cases hx : dst = x
          · subst hx; simp [hg]
          · simp [hx]
        · intro x
          rw [c]
          by_cases hx : dst = x
          · subst hx; simp [hg, CondHolds]
          · simp [hx]
      | some cur =>
        simp only [hg] at h
        cases cond with
        | none =>
          exact step none h (by simp) (by simp [CondHolds])
        | some c =>
          simp only [bind_ok] at h
          obtain ⟨o, ho, r, hr, h⟩ := h
          have : o = .op .lor [cur, c] := by
            simp only [DF.mkOp] at ho
            split at ho
            · simp at ho
            · simpa using ho.symm
          subst this
          have d1 := hd dst cur hg
          have d2 : Defined ρ c := hl (some c, dst) (by simp) c rfl
          obtain ⟨dr, hiff⟩ := hopt _ r (defined_op2 (.inr (.inl rfl)) d1 d2) hr
          refine step (some r) h (by intro c e; simp at e; subst e; exact dr) ?_
          simp only [CondHolds, hiff, hg, Option.some.injEq, exists_eq_left', holds_lor2 d1 d2]

theorem newDst_spec {ρ : Env} : ∀ (j : Dict Int (Option DF)) (n d' : DstDict), newDst j n = .ok d' →
    (∀ e ∈ d', e ∈ n ∨ ∃ c, (e.2, c) ∈ j ∧ (CondHolds ρ e.1 ↔ CondHolds ρ c)) ∧
    (∀ e ∈ n, ∃ y, (e.1, y) ∈ d') ∧
    ∀ x c, (x, c) ∈ j → ∃ k y, (k, y) ∈ d' ∧ (CondHolds ρ k ↔ CondHolds ρ c) := by
  intro j
  induction j with
  | nil =>
    intro n d' h
    simp [newDst] at h; subst h
    exact ⟨fun e he => .inl he, fun e he => ⟨e.2, he⟩, by simp⟩
  | cons e j ih =>
    intro n d' h
    obtain ⟨dst, cond⟩ := e
    simp only [newDst, bind_ok] at h
    obtain ⟨b, hb, h⟩ := h
    have hk : CondHolds ρ (if b then none else cond) ↔ CondHolds ρ cond := by
      cases b with
      | false => simp
      | true =>
        simp only [if_true, CondHolds, true_iff]
        unfold constTrue at hb
        split at hb
        · rename_i v w a b
          simp at hb
          exact ⟨(v, w.getD ρ.dw), by simp [sem], by simp; omega⟩
        · simp at hb
        · simp at hb
    generalize (if b then none else cond) = k at hk h
    obtain ⟨a, b', c⟩ := ih _ _ h
    have mem_set : ∀ e, e ∈ Dict.set n k dst → e ∈ n ∨ e = (k, dst) := by
      intro e he
      clear h a b' c
      induction n with
      | nil => simp [Dict.set] at he; exact .inr he
      | cons q n ihn =>
        obtain ⟨q1, q2⟩ := q
        simp only [Dict.set] at he
        split at he
        · rcases List.mem_cons.mp he with rfl | he
          · exact .inr rfl
          · exact .inl (by simp [he])
        · rcases List.mem_cons.mp he with rfl | he
          · exact .inl (by simp)
          · exact (ihn he).imp (fun h => by simp [h]) id
    have keys : ∀ x, (∃ y, (x, y) ∈ n) ∨ x = k → ∃ y, (x, y) ∈ Dict.set n k dst := by
      intro x hx
      have hm : x ∈ (Dict.set n k dst).map (·.1) := by
        rw [Dict.keys_set]
        split
        · rename_i hh
          rcases hx with ⟨y, hy⟩ | rfl
          · exact List.mem_map.mpr ⟨_, hy, rfl⟩
          · simp only [Dict.has, List.any_eq_true, decide_eq_true_eq] at hh
            obtain ⟨p, hp, rfl⟩ := hh
            exact List.mem_map.mpr ⟨p, hp, rfl⟩
        · rcases hx with ⟨y, hy⟩ | rfl
          · exact List.mem_append_left _ (List.mem_map.mpr ⟨_, hy, rfl⟩)
          · simp
      obtain ⟨p, hp, rfl⟩ := List.mem_map.mp hm
      exact ⟨p.2, hp⟩
    refine ⟨?_, ?_, ?_⟩
    · intro e he
      rcases a e he with h1 | ⟨c', h1, h2⟩
      · rcases mem_set e h1 with h1 | rfl
        · exact .inl h1
        · exact .inr ⟨cond, by simp, hk⟩
      · exact .inr ⟨c', by simp [h1], h2⟩
    · intro e he
      obtain ⟨y, hy⟩ := keys e.1 (.inl ⟨e.2, he⟩)
      obtain ⟨z, hz⟩ := b' _ hy
      exact ⟨z, hz⟩
    · intro x c' hxc
      rcases List.mem_cons.mp hxc with e | hxc
      · simp at e; obtain ⟨rfl, rfl⟩ := e
        obtain ⟨y, hy⟩ := keys k (.inr rfl)
        obtain ⟨z, hz⟩ := b' _ hy
        exact ⟨k, z, hz, hk⟩
      · exact c x c' hxc

/-- One state: the next states allowed are the same. -/
theorem resolveState_spec {ρ : Env} {opt : DF → Py DF}
    (hopt : ∀ c r, Defined ρ c → opt c = .ok r → Defined ρ r ∧ (Holds ρ r ↔ Holds ρ c))
    {d d' : DstDict} (h : resolveState opt d = .ok d') (hdef : ∀ e ∈ d, ∀ c, e.1 = some c → Defined ρ c)
    (hdet : ∀ x y, Allows ρ d x → Allows ρ d y → x = y) (x : Int) : Allows ρ d' x ↔ Allows ρ d x := by
  unfold resolveState at h
  simp only [bind_ok] at h
  obtain ⟨j, hj, h⟩ := h
  obtain ⟨q1, q2, a⟩ := joinConds_spec hopt _ _ _ hj (fun e he => hdef e (mem_sortOn.mp he)) (by simp [Dict.get?_nil])
  have nodup : Dict.Nodup j := by
    have : ∀ (l : List (Option DF × Int)) (d j : Dict Int (Option DF)), Dict.Nodup d → joinConds opt l d = .ok j → Dict.Nodup j := by
      intro l
      induction l with
      | nil => intro d j hd h; simp [joinConds] at h; subst h; exact hd
      | cons e l ih =>
        intro d j hd h
        obtain ⟨cond, dst⟩ := e
        simp only [joinConds] at h
        split at h
        · exact ih _ _ (Dict.nodup_set hd _ _) h
        · exact ih _ _ hd h
        · split at h
          · exact ih _ _ (Dict.nodup_set hd _ _) h
          · simp only [bind_ok] at h
            obtain ⟨_, _, _, _, h⟩ := h
            exact ih _ _ (Dict.nodup_set hd _ _) h
    exact this _ _ _ (by simp [Dict.Nodup]) hj
  have getmem : ∀ y c, (y, c) ∈ j ↔ j.get? y = some c := by
    intro y c
    refine ⟨?_, Dict.mem_of_get?⟩
    clear hj h a q1 q2
    induction j with
    | nil => simp
    | cons p j ih =>
      intro hm
      unfold Dict.Nodup at nodup
      rw [List.map_cons, List.nodup_cons] at nodup
      rw [Dict.get?_cons]
      rcases List.mem_cons.mp hm with rfl | hm
      · simp
      · rw [if_neg, ih nodup.2 hm]
        rintro rfl
        exact nodup.1 (List.mem_map.mpr ⟨_, hm, rfl⟩)
  have hA : ∀ y, Allows ρ d y ↔ ∃ c, (y, c) ∈ j ∧ CondHolds ρ c := by
    intro y
    have := a y
    simp only [Dict.get?_nil, reduceCtorEq, false_and, exists_false, false_or] at this
    simp only [getmem, this, Allows, mem_sortOn]
    constructor
    · rintro ⟨c, hc, hh⟩; exact ⟨(c, y), hc, rfl, hh⟩
    · rintro ⟨e, he, rfl, hh⟩; exact ⟨e.1, he, hh⟩
  obtain ⟨n1, _, n3⟩ := newDst_spec (ρ := ρ) _ _ _ h
  have sub : ∀ y, Allows ρ d' y → Allows ρ d y := by
    rintro y ⟨k, hk, hh⟩
    rcases n1 _ hk with h1 | ⟨c, hc, hiff⟩
    · simp at h1
    · exact (hA y).mpr ⟨c, hc, hiff.mp hh⟩
  refine ⟨sub x, ?_⟩
  intro hx
  obtain ⟨c, hc, hh⟩ := (hA x).mp hx
  obtain ⟨k, y, hk, hiff⟩ := n3 x c hc
  have hy : Allows ρ d' y := ⟨k, hk, hiff.mpr hh⟩
  rw [hdet x y hx (sub y hy)]
  exact hy

theorem resolveLoop_get {opt : DF → Py DF} : ∀ (l : List (Int × DstDict)) (n r : Dict Int DstDict),
    resolveLoop opt l n = .ok r → (l.map (·.1)).Nodup → ∀ s,
    (∀ d, (s, d) ∈ l → ∃ d', resolveState opt d = .ok d' ∧ r.get? s = some d') ∧
    ((∀ d, (s, d) ∉ l) → r.get? s = n.get? s) := by
  intro l
  induction l with
  | nil => intro n r h _ s; simp [resolveLoop] at h; subst h; simp
  | cons e l ih =>
    intro n r h hn s
    obtain ⟨src, d⟩ := e
    simp only [resolveLoop, bind_ok] at h
    obtain ⟨d', hd', h⟩ := h
    rw [List.map_cons, List.nodup_cons] at hn
    obtain ⟨a, b⟩ := ih _ _ h hn.2 s
    have hsrc : ∀ d, (src, d) ∉ l := fun d hd => hn.1 (List.mem_map.mpr ⟨_, hd, rfl⟩)
    refine ⟨?_, ?_⟩
    · intro d0 hd0
      rcases List.mem_cons.mp hd0 with e | hd0
      · simp at e; obtain ⟨rfl, rfl⟩ := e
        refine ⟨d', hd', ?_⟩
        rw [b hsrc, Dict.get?_set, if_pos rfl]
      · exact a d0 hd0
    · intro hno
      rw [b (fun d hd => hno d (by simp [hd])), Dict.get?_set, if_neg]
      rintro rfl
      exact hno d (by simp)

theorem sortOn_keys_nodup {α : Type} (l : List (Int × α)) (h : (l.map (·.1)).Nodup) :
    ((sortOn (fun p => p.1) l).map (·.1)).Nodup := by
  have perm : ∀ (l : List (Int × α)), (sortOn (fun p => p.1) l).Perm l := by
    intro l
    induction l with
    | nil => exact .refl _
    | cons a l ih =>
      have : sortOn (fun p : Int × α => p.1) (a :: l) = insertOn (fun p => p.1) a (sortOn (fun p => p.1) l) := rfl
      rw [this]
      have ins : ∀ (x : Int × α) (m : List (Int × α)), (insertOn (fun p => p.1) x m).Perm (x :: m) := by
        intro x m
        induction m with
        | nil => exact .refl _
        | cons y m ihm =>
          simp only [insertOn]
          split
          · exact .refl _
          · exact (List.Perm.cons y ihm).trans (List.Perm.swap ..)
      exact (ins a _).trans (List.Perm.cons a ih)
  exact ((perm l).map _).nodup_iff.mpr h

/-- **C27** `resolve` keeps the states and, in every state and under every valuation, the next states allowed: when
the simplification `opt` keeps the truth of conditions, the conditions have values, and at most one next state is
allowed at a time. -/
theorem C27_resolve (ρ : Env) (opt : DF → Py DF)
    (hopt : ∀ c r, Defined ρ c → opt c = .ok r → Defined ρ r ∧ (Holds ρ r ↔ Holds ρ c))
    (m r : Fsm) (hn : Dict.Nodup m.fsm) (h : m.resolve opt = .ok r) :
    r.any = m.any ∧ ∀ s, match m.fsm.get? s with
      | none => r.fsm.get? s = none
      | some d => ∃ d', r.fsm.get? s = some d' ∧
        ((∀ e ∈ d, ∀ c, e.1 = some c → Defined ρ c) → (∀ x y, Allows ρ d x → Allows ρ d y → x = y) →
          ∀ x, Allows ρ d' x ↔ Allows ρ d x) := by
  unfold Fsm.resolve at h
  simp only [bind_ok, ok_inj] at h
  obtain ⟨n, hl, rfl⟩ := h
  refine ⟨rfl, ?_⟩
  intro s
  obtain ⟨a, b⟩ := resolveLoop_get _ _ _ hl (sortOn_keys_nodup _ hn) s
  cases hg : m.fsm.get? s with
  | none =>
    simp only
    rw [b, Dict.get?_nil]
    intro d hd
    rw [mem_sortOn] at hd
    have : m.fsm.has s = true := by
      simp only [Dict.has, List.any_eq_true]
      exact ⟨_, hd, by simp⟩
    rw [Dict.has_eq, hg] at this
    simp at this
  | some d =>
    obtain ⟨d', h1, h2⟩ := a d (mem_sortOn.mpr (Dict.mem_of_get? hg))
    exact ⟨d', h2, fun hdef hdet x => resolveState_spec hopt h1 hdef hdet x⟩

/-- A condition that is present and, if constant, an int. -/
def PlainCond : DF → Prop
  | .none => False
  | .ev (.int _) _ _ _ => True
  | .ev .. => False
  | _ => True

theorem joinConds_total {opt : DF → Py DF} (hopt : ∀ c, ∃ r, opt c = .ok r ∧ PlainCond r) :
    ∀ (l : List (Option DF × Int)) (d : Dict Int (Option DF)), (∀ e ∈ l, ∀ c, e.1 = some c → PlainCond c) →
    (∀ e ∈ d, ∀ c, e.2 = some c → PlainCond c) →
    ∃ j, joinConds opt l d = .ok j ∧ ∀ e ∈ j, ∀ c, e.2 = some c → PlainCond c := by
  intro l
  induction l with
  | nil => intro d _ hd; exact ⟨d, rfl, hd⟩
  | cons e l ih =>
    intro d hl hd
    obtain ⟨cond, dst⟩ := e
    have hl' : ∀ e ∈ l, ∀ c, e.1 = some c → PlainCond c := fun e he => hl e (by simp [he])
    have step : ∀ c' : Option DF, (∀ c, c' = some c → PlainCond c) →
        ∀ e ∈ Dict.set d dst c', ∀ c, e.2 = some c → PlainCond c := by
      intro c' hc e he c hec
      have : e ∈ d ∨ e = (dst, c') := by
        clear hd ih
        induction d with
        | nil => simp [Dict.set] at he; exact .inr he
        | cons q n ihn =>
          obtain ⟨q1, q2⟩ := q
          simp only [Dict.set] at he
          split at he
          · rcases List.mem_cons.mp he with rfl | he
            · exact .inr rfl
            · exact .inl (by simp [he])
          · rcases List.mem_cons.mp he with rfl | he
            · exact .inl (by simp)
            · exact (ihn he).imp (fun h => by simp [h]) id
      rcases this with h | rfl
      · exact hd e h c hec
      · exact hc c hec
    have hcond := hl (cond, dst) (by simp)
    simp only [joinConds]
    cases hg : d.get? dst with
    | none => exact ih _ hl' (step cond hcond)
    | some cur =>
      cases cur with
      | none => exact ih _ hl' hd
      | some cur =>
        cases cond with
        | none => exact ih _ hl' (step none (by simp))
        | some c =>
          have h1 : PlainCond cur := hd _ (Dict.mem_of_get? hg) cur rfl
          have h2 : PlainCond c := hcond c rfl
          have n1 : DF.none ≠ cur := by rintro rfl; exact h1
          have n2 : DF.none ≠ c := by rintro rfl; exact h2
          have : DF.mkOp .lor [cur, c] = .ok (.op .lor [cur, c]) := by simp [DF.mkOp, n1, n2]
          obtain ⟨r, hr, hp⟩ := hopt (.op .lor [cur, c])
          simp only [this, ok_bind, hr]
          exact ih _ hl' (step (some r) (by intro c e; simp at e; subst e; exact hp))

theorem newDst_total : ∀ (j : Dict Int (Option DF)) (n : DstDict), (∀ e ∈ j, ∀ c, e.2 = some c → PlainCond c) →
    ∃ d, newDst j n = .ok d := by
  intro j
  induction j with
  | nil => intro n _; exact ⟨n, rfl⟩
  | cons e j ih =>
    intro n h
    obtain ⟨dst, cond⟩ := e
    have : ∃ b, constTrue cond = .ok b := by
      have hp := h (dst, cond) (by simp)
      unfold constTrue
      split
      · exact ⟨_, rfl⟩
      · rename_i hne
        have := hp _ rfl
        rename_i v _ _ _ _
        cases v <;> first | exact absurd rfl (hne _) | exact absurd this (by simp [PlainCond])
      · exact ⟨_, rfl⟩
    obtain ⟨b, hb⟩ := this
    simp only [newDst, hb, ok_bind]
    exact ih _ (fun e he => h e (by simp [he]))

/-- **C27** `resolve` returns, when the simplification does and all conditions are nodes (constants being ints). -/
theorem C27_resolve_total (opt : DF → Py DF) (hopt : ∀ c, ∃ r, opt c = .ok r ∧ PlainCond r) (m : Fsm)
    (hm : ∀ p ∈ m.fsm, ∀ e ∈ p.2, ∀ c, e.1 = some c → PlainCond c) : ∃ r, m.resolve opt = .ok r := by
  have key : ∀ (l : List (Int × DstDict)) (n : Dict Int DstDict),
      (∀ p ∈ l, ∀ e ∈ p.2, ∀ c, e.1 = some c → PlainCond c) → ∃ r, resolveLoop opt l n = .ok r := by
    intro l
    induction l with
    | nil => intro n _; exact ⟨n, rfl⟩
    | cons p l ih =>
      intro n h
      obtain ⟨src, d⟩ := p
      obtain ⟨j, hj, hjp⟩ := joinConds_total hopt (sortOn (fun e => e.2) d) []
        (fun e he => h (src, d) (by simp) e (mem_sortOn.mp he)) (by simp)
      obtain ⟨d', hd'⟩ := newDst_total j [] hjp
      have : resolveState opt d = .ok d' := by simp only [resolveState, hj, ok_bind, hd']
      simp only [resolveLoop, this, ok_bind]
      exact ih _ (fun p hp => h p (by simp [hp]))
  obtain ⟨r, hr⟩ := key (sortOn (fun p => p.1) m.fsm) [] (fun p hp => hm p (mem_sortOn.mp hp))
  exact ⟨{ m with fsm := r }, by simp only [Fsm.resolve, hr, ok_bind]⟩

/-- Non-vacuity of the determinism demanded: two conditions for state 1, the opposite one for state 2. -/
def c27d : DstDict := [(some (.term c23d), 1), (some (.op .ulnot [.term c23d]), 2), (some (.op .land [.term c23d, .term c23d]), 1)]
example : ∀ x y, Allows (c23env 0 1) c27d x → Allows (c23env 0 1) c27d y → x = y := by
  have h : ¬ Holds (c23env 0 1) (.op .ulnot [.term c23d]) := by
    rw [holds_not]; simp [sem, c23env, c23d, c23s]
  rintro x y ⟨c, hc, hh⟩ ⟨c', hc', hh'⟩
  simp only [c27d, List.mem_cons, Prod.mk.injEq, List.not_mem_nil, or_false] at hc hc'
  rcases hc with ⟨rfl, rfl⟩ | ⟨rfl, rfl⟩ | ⟨rfl, rfl⟩ <;> rcases hc' with ⟨rfl, rfl⟩ | ⟨rfl, rfl⟩ | ⟨rfl, rfl⟩ <;>
    first | rfl | exact absurd hh h | exact absurd hh' h
example : resolveState (fun c => .ok c) c27d =
    .ok [(some (.op .lor [.term c23d, .op .land [.term c23d, .term c23d]]), 1), (some (.op .ulnot [.term c23d]), 2)] := by
  decide +kernel
example : Covers 3 none (7, { ranges := [(5, 6), (2, 4)] }) := ⟨rfl, (2, 4), by simp, by decide, by decide⟩

/-! ### C47 -/

/-- The labels of a state machine: its states and the targets of their transitions. -/
def Fsm.Label (m : Fsm) (x : Int) : Prop := ∃ p ∈ m.fsm, x = p.1 ∨ ∃ c, (c, x) ∈ p.2

/-- `r` is the pair of the least and the greatest element of `P`, both absent when `P` is empty. -/
def IsRange (P : Int → Prop) (r : Option Int × Option Int) : Prop :=
  (r = (none, none) ∧ ∀ x, ¬ P x) ∨ ∃ a b, r = (some a, some b) ∧ P a ∧ P b ∧ ∀ x, P x → a ≤ x ∧ x ≤ b

theorem isRange_upd {P : Int → Prop} {r : Option Int × Option Int} (h : IsRange P r) (x : Int) :
    IsRange (fun y => P y ∨ y = x) (updMin r.1 x, updMax r.2 x) := by
  right
  rcases h with ⟨rfl, hP⟩ | ⟨a, b, rfl, ha, hb, hP⟩
  · refine ⟨x, x, rfl, .inr rfl, .inr rfl, ?_⟩
    rintro y (hy | rfl)
    · exact absurd hy (hP y)
    · exact ⟨Int.le_refl _, Int.le_refl _⟩
  · refine ⟨if x < a then x else a, if x > b then x else b, ?_, ?_, ?_, ?_⟩
    · simp only [updMin, updMax]
      split <;> split <;> rfl
    · split
      · exact .inr rfl
      · exact .inl ha
    · split
      · exact .inr rfl
      · exact .inl hb
    · rintro y (hy | rfl)
      · have := hP y hy
        constructor <;> split <;> omega
      · constructor <;> split <;> omega

theorem isRange_congr {P Q : Int → Prop} {r} (h : ∀ x, P x ↔ Q x) (hr : IsRange P r) : IsRange Q r := by
  have : P = Q := funext (fun x => propext (h x))
  rwa [← this]

theorem labelRange_inner (l : DstDict) : ∀ (P : Int → Prop) (r : Option Int × Option Int), IsRange P r →
    IsRange (fun y => P y ∨ ∃ c, (c, y) ∈ l) (l.foldl (fun r e => (updMin r.1 e.2, updMax r.2 e.2)) r) := by
  induction l with
  | nil => intro P r h; exact isRange_congr (by simp) h
  | cons e l ih =>
    intro P r h
    rw [List.foldl_cons]
    refine isRange_congr ?_ (ih _ _ (isRange_upd h e.2))
    intro x
    obtain ⟨c, d⟩ := e
    simp only [List.mem_cons, Prod.mk.injEq]
    constructor
    · rintro ((h | rfl) | ⟨c', h⟩)
      · exact .inl h
      · exact .inr ⟨c, .inl ⟨rfl, rfl⟩⟩
      · exact .inr ⟨c', .inr h⟩
    · rintro (h | ⟨c', ⟨_, rfl⟩ | h⟩)
      · exact .inl (.inl h)
      · exact .inl (.inr rfl)
      · exact .inr ⟨c', h⟩

/-- **C47** `label_range` is the pair of the smallest and the largest label of the machine (states and transition
targets), and `(None, None)` exactly for the machine without states. -/
theorem C47_label_range (m : Fsm) : IsRange m.Label m.labelRange := by
  have key : ∀ (l : List (Int × DstDict)) (P : Int → Prop) (r : Option Int × Option Int), IsRange P r →
      IsRange (fun y => P y ∨ ∃ p ∈ l, y = p.1 ∨ ∃ c, (c, y) ∈ p.2) (l.foldl (fun r p =>
        p.2.foldl (fun r e => (updMin r.1 e.2, updMax r.2 e.2)) (updMin r.1 p.1, updMax r.2 p.1)) r) := by
    intro l
    induction l with
    | nil => intro P r h; exact isRange_congr (by simp) h
    | cons p l ih =>
      intro P r h
      rw [List.foldl_cons]
      refine isRange_congr ?_ (ih _ _ (labelRange_inner p.2 _ _ (isRange_upd h p.1)))
      intro x
      simp only [List.mem_cons, exists_eq_or_imp, or_assoc]
  have := key m.fsm (fun _ => False) (none, none) (.inl ⟨rfl, by simp⟩)
  exact isRange_congr (by simp [Fsm.Label]) this

/-- **C47** `size` is the number of recorded transitions, those from any state counted once per state. -/
theorem C47_size (m : Fsm) : m.size = (m.fsm.map (fun p => p.2.length)).sum + m.fsm.length * m.any.length := by
  have key : ∀ (l : List (Int × DstDict)) (n : Nat), l.foldl (fun n p => n + p.2.length) n =
      n + (l.map (fun p => p.2.length)).sum := by
    intro l
    induction l with
    | nil => simp
    | cons p l ih => intro n; rw [List.foldl_cons, ih]; simp; omega
  unfold Fsm.size
  rw [key]
  simp

example : (fsmOf [(3, [4]), (4, [5, 9]), (5, [1])]).labelRange = (some 1, some 9) := by decide +kernel

/-! ### C48 -/

theorem addEntry_calls {name : ScopeChain} {width : Nat} {m m' : Fsm} {e : List DF × DF}
    (h : Fsm.addEntry name width m e = .ok m') :
    ∃ calls : List (Int × SNode), m' = calls.foldl (fun m call => m.construct call.1 call.2) m ∧
      ∀ call, call ∈ calls ↔ ∃ w a b sn, e.2 = .ev (.int call.1) w a b ∧ walkCondlist e.1 name width = .ok (some sn) ∧
        call.2 ∈ nodesOf sn := by
  unfold Fsm.addEntry at h
  split at h
  · rename_i v w a b he
    simp only [bind_ok] at h
    obtain ⟨r, hr, h⟩ := h
    cases r with
    | none =>
      simp only [ok_inj] at h; subst h
      refine ⟨[], rfl, ?_⟩
      simp [hr]
    | some sn =>
      have : m' = (nodesOf sn).foldl (fun m n => m.construct v n) m := by
        cases sn with
        | one n => simp only [ok_inj] at h; subst h; rfl
        | many ns => simp only [ok_inj] at h; subst h; rfl
      refine ⟨(nodesOf sn).map (fun n => (v, n)), by rw [this, List.foldl_map], ?_⟩
      rintro ⟨x, n⟩
      rw [he, hr]
      simp only [List.mem_map, Prod.mk.injEq, DF.ev.injEq, PyVal.int.injEq, ok_inj, Option.some.injEq]
      constructor
      · rintro ⟨n', hn, rfl, rfl⟩; exact ⟨w, a, b, sn, ⟨rfl, rfl, rfl, rfl⟩, rfl, hn⟩
      · rintro ⟨_, _, _, _, ⟨rfl, _⟩, rfl, hn⟩; exact ⟨n, hn, rfl, rfl⟩
  · simp at h
  · rename_i h1 h2
    simp only [ok_inj] at h; subst h
    refine ⟨[], rfl, ?_⟩
    rintro ⟨x, n⟩
    simp only [List.not_mem_nil, false_iff]
    rintro ⟨w, a, b, _, he, _⟩
    exact h1 _ _ _ _ he

theorem getFsm_calls {name : ScopeChain} {width : Nat} {fd : FuncDict} {m : Fsm} (h : getFsm name width fd = .ok m) :
    ∃ calls : List (Int × SNode), m = calls.foldl (fun m call => m.construct call.1 call.2) {} ∧
      ∀ call, call ∈ calls ↔ ∃ e ∈ fd, ∃ w a b sn, e.2 = .ev (.int call.1) w a b ∧
        walkCondlist e.1 name width = .ok (some sn) ∧ call.2 ∈ nodesOf sn := by
  have key : ∀ (l : List (List DF × DF)) (m0 m : Fsm), l.foldlM (Fsm.addEntry name width) m0 = .ok m →
      ∃ calls : List (Int × SNode), m = calls.foldl (fun m call => m.construct call.1 call.2) m0 ∧
      ∀ call, call ∈ calls ↔ ∃ e ∈ l, ∃ w a b sn, e.2 = .ev (.int call.1) w a b ∧
        walkCondlist e.1 name width = .ok (some sn) ∧ call.2 ∈ nodesOf sn := by
    intro l
    induction l with
    | nil =>
      intro m0 m h
      simp only [List.foldlM_nil, pure, Except.pure, ok_inj] at h
      subst h
      exact ⟨[], rfl, by simp⟩
    | cons e l ih =>
      intro m0 m h
      rw [List.foldlM_cons, bind_ok] at h
      obtain ⟨m1, h1, h2⟩ := h
      obtain ⟨c1, e1, i1⟩ := addEntry_calls h1
      obtain ⟨c2, e2, i2⟩ := ih _ _ h2
      refine ⟨c1 ++ c2, by rw [e2, e1, List.foldl_append], ?_⟩
      intro call
      rw [List.mem_append, i1, i2]
      simp only [List.mem_cons, exists_eq_or_imp]
  obtain ⟨calls, h1, h2⟩ := key _ _ _ h
  refine ⟨calls, h1, ?_⟩
  intro call
  rw [h2]
  simp only [mem_sortOn]

/-- Under the valuation, the machine allows the next state `d` from state `v`. -/
def Fsm.Steps (ρ : Env) (m : Fsm) (v d : Int) : Prop :=
  ∃ c, (m.next? v c = some d ∨ Dict.get? m.any c = some d) ∧ CondHolds ρ c

/-- The condition lists of the constant leaves are readable in both directions and can be satisfied. -/
def FsmReadable (ρ : Env) (name : ScopeChain) (width : Nat) (fd : FuncDict) : Prop :=
  ∀ e ∈ fd, ∀ x w a b, e.2 = .ev (.int x) w a b →
    (∀ c ∈ e.1, Readable name width c ρ true ∧ Readable name width c ρ false) ∧
    ∃ ρ' v', StateIs ρ' name width v' ∧ (∀ c ∈ e.1, Readable name width c ρ' true) ∧ AllHold ρ' e.1

/-- The machine built from a dictionary of functions of which, under the valuation, the selected ones (at most one)
are those whose conditions hold. -/
theorem fsm_follows (ρ : Env) (name : ScopeChain) (width : Nat) (v : Int) (fd : FuncDict) (Sel : DF → Prop)
    (hsel : ∀ g, (∃ cs, (cs, g) ∈ fd ∧ AllHold ρ cs) ↔ Sel g) (hfun : ∀ g g', Sel g → Sel g' → g = g')
    (m : Fsm) (hs : StateIs ρ name width v)
    (hm : getFsm name width fd = .ok m) (hr : FsmReadable ρ name width fd) (d : Int) :
    m.Steps ρ v d ↔ ∃ w a b, Sel (.ev (.int d) w a b) := by
  classical
  obtain ⟨calls, rfl, hcalls⟩ := getFsm_calls hm
  -- a call whose node contains the state leads to the selected leaf
  have sound : ∀ call ∈ calls, InNode ρ v call.2 → ∃ w a b, Sel (.ev (.int call.1) w a b) := by
    intro call hc hin
    obtain ⟨e, he, w, a, b, sn, hev, hw, hn⟩ := (hcalls call).mp hc
    obtain ⟨h1, h2⟩ := hr e he _ _ _ _ hev
    have hall := C23_states_exact_partial ρ name width v e.1 hs (fun c hc => (h1 c hc).2) h2 sn hw
      (inSN_nodes.mpr ⟨_, hn, hin⟩)
    refine ⟨w, a, b, (hsel _).mp ⟨e.1, ?_, hall⟩⟩
    rw [← hev]; exact he
  have inOf : ∀ call : Int × SNode, CondHolds ρ call.2.tc → (call.2.isany = true ∨ InRanges v call.2.ranges) →
      InNode ρ v call.2 := by
    intro call h1 h2
    refine ⟨h2, ?_⟩
    intro t ht
    rw [ht] at h1; exact h1
  constructor
  · rintro ⟨k, hk, hck⟩
    rcases hk with hk | hk
    · rw [C27_construct] at hk
      cases hl : (calls.filter (fun call => decide (Covers v k call))).getLast? with
      | none => simp [hl] at hk
      | some call =>
        simp [hl] at hk
        have hmem := List.mem_of_getLast? hl
        simp only [List.mem_filter, decide_eq_true_eq] at hmem
        obtain ⟨hmem, hcov⟩ := hmem
        rw [← hk]
        exact sound call hmem (inOf call (by rw [hcov.1]; exact hck) (.inr hcov.2))
    · rw [C27_construct_any] at hk
      cases hl : (calls.filter (fun call => call.2.isany && decide (call.2.tc = k))).getLast? with
      | none => simp [hl] at hk
      | some call =>
        simp [hl] at hk
        have hmem := List.mem_of_getLast? hl
        simp only [List.mem_filter, Bool.and_eq_true, decide_eq_true_eq] at hmem
        obtain ⟨hmem, hany, htc⟩ := hmem
        rw [← hk]
        exact sound call hmem (inOf call (by rw [htc]; exact hck) (.inl hany))
  · rintro ⟨w, a, b, hd⟩
    obtain ⟨cs, hcs, hall⟩ := (hsel _).mpr hd
    obtain ⟨h1, _⟩ := hr _ hcs _ _ _ _ rfl
    -- the walk of this entry succeeds
    have hwalk : ∃ res, walkCondlist cs name width = .ok res := by
      unfold getFsm at hm
      have : ∀ (l : List (List DF × DF)) (m0 m : Fsm), l.foldlM (Fsm.addEntry name width) m0 = .ok m →
          (cs, DF.ev (.int d) w a b) ∈ l → ∃ res, walkCondlist cs name width = .ok res := by
        intro l
        induction l with
        | nil => intro _ _ _ h; simp at h
        | cons e l ih =>
          intro m0 m h hmem
          rw [List.foldlM_cons, bind_ok] at h
          obtain ⟨m1, h1, h2⟩ := h
          rcases List.mem_cons.mp hmem with rfl | hmem
          · simp only [Fsm.addEntry, bind_ok] at h1
            obtain ⟨r, hr, _⟩ := h1
            exact ⟨r, hr⟩
          · exact ih _ _ h2 hmem
      exact this _ _ _ hm (mem_sortOn.mpr hcs)
    obtain ⟨res, hres⟩ := hwalk
    obtain ⟨sn, rfl, hin⟩ := C23_states_overapproximated_partial ρ name width v cs hs (fun c hc => (h1 c hc).1) hall res hres
    obtain ⟨n, hn, hinn⟩ := inSN_nodes.mp hin
    have hcall : (d, n) ∈ calls := (hcalls _).mpr ⟨_, hcs, w, a, b, sn, rfl, hres, hn⟩
    have hck : CondHolds ρ n.tc := by
      cases ht : n.tc with
      | none => trivial
      | some t => exact hinn.2 t ht
    refine ⟨n.tc, ?_, hck⟩
    -- whichever call was last, it leads to the same state
    have same : ∀ call ∈ calls, InNode ρ v call.2 → call.1 = d := by
      intro call hc hi
      obtain ⟨w', a', b', h'⟩ := sound call hc hi
      have := hfun _ _ hd h'
      simp at this
      exact this.1.symm
    rcases hinn.1 with hany | hrg
    · right
      rw [C27_construct_any]
      have hm' : (d, n) ∈ calls.filter (fun call => call.2.isany && decide (call.2.tc = n.tc)) := by
        simp [hcall, hany]
      cases hl : (calls.filter (fun call => call.2.isany && decide (call.2.tc = n.tc))).getLast? with
      | none => rw [List.getLast?_eq_none_iff] at hl; rw [hl] at hm'; simp at hm'
      | some call =>
        have hmem := List.mem_of_getLast? hl
        simp only [List.mem_filter, Bool.and_eq_true, decide_eq_true_eq] at hmem
        simp only [Option.map_some, Option.some.injEq]
        exact same call hmem.1 (inOf call (by rw [hmem.2.2]; exact hck) (.inl hmem.2.1))
    · left
      rw [C27_construct]
      have hm' : (d, n) ∈ calls.filter (fun call => decide (Covers v n.tc call)) := by
        simp only [List.mem_filter, decide_eq_true_eq]
        exact ⟨hcall, rfl, hrg⟩
      cases hl : (calls.filter (fun call => decide (Covers v n.tc call))).getLast? with
      | none => rw [List.getLast?_eq_none_iff] at hl; rw [hl] at hm'; simp at hm'
      | some call =>
        have hmem := List.mem_of_getLast? hl
        simp only [List.mem_filter, decide_eq_true_eq] at hmem
        simp only [Option.map_some, Option.some.injEq]
        exact same call hmem.1 (inOf call (by rw [hmem.2.1]; exact hck) (.inr hmem.2.2))

/-- **C48** The state machine built from a conditional tree allows, in state `v` and under every valuation, the next
state `d` exactly when the tree selects the constant `d`. -/
theorem C48_fsm_follows_tree_partial (ρ : Env) (name : ScopeChain) (width : Nat) (v : Int) (c t f : DF) (fd : FuncDict)
    (m : Fsm) (hs : StateIs ρ name width v) (hh : NoHollow (.branch c t f)) (hf : split (.branch c t f) = .ok fd)
    (hm : getFsm name width fd = .ok m) (hr : FsmReadable ρ name width fd) (d : Int) :
    m.Steps ρ v d ↔ ∃ w a b, selectLeaf ρ (.branch c t f) = some (.ev (.int d) w a b) :=
  fsm_follows ρ name width v fd (fun g => selectLeaf ρ (.branch c t f) = some g) (C18_split_selects ρ c t f fd hh hf)
    (fun g g' h h' => by rw [h] at h'; exact Option.some.inj h') m hs hm hr d

/-- Non-vacuity of C48: the tree `s == 1 ? (d ? 2 : 0) : 3`. -/
def c48c : DF := .op .eq [.term c23s, .evi 1 (some 32)]
def c48t : DF := .branch c48c (.branch (.term c23d) (.evi 2 (some 32)) (.evi 0 (some 32))) (.evi 3 (some 32))
def c48fd : FuncDict := [([c48c, .term c23d], .evi 2 (some 32)), ([c48c, .op .ulnot [.term c23d]], .evi 0 (some 32)),
  ([.op .ulnot [c48c]], .evi 3 (some 32))]
example : NoHollow c48t ∧ split c48t = .ok c48fd := ⟨by simp [c48t, NoHollow, HasLeaf, DF.evi], by decide +kernel⟩
example : ∃ m, getFsm c23s 2 c48fd = .ok m := by
  cases h : getFsm c23s 2 c48fd with
  | ok m => exact ⟨m, rfl⟩
  | error e =>
    have : (match getFsm c23s 2 c48fd with | .ok _ => true | .error _ => false) = true := by decide +kernel
    rw [h] at this
    exact absurd this (by simp)
theorem c48_readable : FsmReadable (c23env 1 1) c23s 2 c48fd := by
  have st : ∀ v x : Int, 0 ≤ v → v ≤ maxVal 2 → StateIs (c23env v x) c23s 2 v :=
    fun v x h1 h2 => ⟨⟨2, by simp [c23env]⟩, h1, h2⟩
  have r1 : ∀ v x p, Readable c23s 2 c48c (c23env v x) p := by
    intro v x p
    simp [c48c, Readable, Op.nonCondition, Op.compare, Defined, sem, semList, c23env, DF.evi, opSem, StrictOK]
  have r2 : ∀ v x p, 0 ≤ x → Readable c23s 2 (.term c23d) (c23env v x) p := by
    intro v x p hx
    exact ⟨x, 2, by simp [c23env, c23s, c23d], hx⟩
  have h1 : ∀ x, Holds (c23env 1 x) c48c := by
    intro x; simp [Holds, c48c, sem, semList, c23env, DF.evi, opSem, b2i]
  have h2 : ∀ v, Holds (c23env v 1) (.term c23d) := by
    intro v; simp [Holds, sem, c23env, c23s, c23d]
  have h3 : Holds (c23env 2 1) (.op .ulnot [c48c]) := by
    simp [Holds, c48c, sem, semList, c23env, DF.evi, opSem, b2i]
  have h4 : Holds (c23env 1 0) (.op .ulnot [.term c23d]) := by
    simp [Holds, sem, semList, c23env, opSem, b2i, c23s, c23d]
  have r3 : ∀ v p, Readable c23s 2 (.op .ulnot [.term c23d]) (c23env v 1) p := by
    intro v p
    simp only [Readable, true_or, if_true]
    exact ⟨by simp, r2 v 1 (!p) (by decide), fun _ => ⟨c23env 1 0, 1, st _ _ (by decide) (by decide), r2 1 0 false (by decide), by simp, h4⟩⟩
  have r3' : ∀ v, Readable c23s 2 (.op .ulnot [.term c23d]) (c23env v 0) true := by
    intro v
    simp only [Readable, true_or, if_true]
    exact ⟨by simp, r2 v 0 false (by decide), by simp⟩
  have r4 : ∀ v p, Readable c23s 2 (.op .ulnot [c48c]) (c23env v 1) p := by
    intro v p
    simp only [Readable, true_or, if_true]
    exact ⟨by simp, r1 v 1 (!p), fun _ => ⟨c23env 2 1, 2, st _ _ (by decide) (by decide), r1 2 1 false, by simp, h3⟩⟩
  intro e he x w a b hev
  simp only [c48fd, List.mem_cons, List.not_mem_nil, or_false] at he
  rcases he with rfl | rfl | rfl
  · refine ⟨?_, c23env 1 1, 1, st _ _ (by decide) (by decide), ?_, ?_⟩
    · rintro c hc
      simp only [List.mem_cons, List.not_mem_nil, or_false] at hc
      rcases hc with rfl | rfl
      · exact ⟨r1 .., r1 ..⟩
      · exact ⟨r2 _ _ _ (by decide), r2 _ _ _ (by decide)⟩
    · rintro c hc
      simp only [List.mem_cons, List.not_mem_nil, or_false] at hc
      rcases hc with rfl | rfl
      · exact r1 ..
      · exact r2 _ _ _ (by decide)
    · rintro c hc
      simp only [List.mem_cons, List.not_mem_nil, or_false] at hc
      rcases hc with rfl | rfl
      · exact h1 _
      · exact h2 _
  · refine ⟨?_, c23env 1 0, 1, st _ _ (by decide) (by decide), ?_, ?_⟩
    · rintro c hc
      simp only [List.mem_cons, List.not_mem_nil, or_false] at hc
      rcases hc with rfl | rfl
      · exact ⟨r1 .., r1 ..⟩
      · exact ⟨r3 .., r3 ..⟩
    · rintro c hc
      simp only [List.mem_cons, List.not_mem_nil, or_false] at hc
      rcases hc with rfl | rfl
      · exact r1 ..
      · exact r3' _
    · rintro c hc
      simp only [List.mem_cons, List.not_mem_nil, or_false] at hc
      rcases hc with rfl | rfl
      · exact h1 _
      · exact h4
  · refine ⟨?_, c23env 2 1, 2, st _ _ (by decide) (by decide), ?_, ?_⟩
    · rintro c hc
      simp only [List.mem_cons, List.not_mem_nil, or_false] at hc
      subst hc; exact ⟨r4 .., r4 ..⟩
    · rintro c hc
      simp only [List.mem_cons, List.not_mem_nil, or_false] at hc
      subst hc; exact r4 ..
    · rintro c hc
      simp only [List.mem_cons, List.not_mem_nil, or_false] at hc
      subst hc; exact h3

end Pyv
