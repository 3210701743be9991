import Verif.Transition
import Verif.Props.SplitterProps
import Mathlib.Order.Basic
/-
  C20, C21, C22: the state ranges of transition.py and the value inference of inference.py.
-/
namespace Pyv

/-! ### Specification -/

/-- `v` lies in one of the ranges. -/
def InRanges (v : Int) (l : List (Int × Int)) : Prop := ∃ p ∈ l, p.1 ≤ v ∧ v ≤ p.2

/-- State `v` belongs to a state node: its states are all or those of the ranges, and its transition condition (if
any) holds. -/
def InNode (ρ : Env) (v : Int) (n : SNode) : Prop :=
  (n.isany = true ∨ InRanges v n.ranges) ∧ ∀ t, n.tc = some t → Holds ρ t

/-- The values described by an inferred range. -/
def InInferred (v : Int) (i : Inferred) : Prop :=
  let inside := (∀ m, i.minval = some m → m ≤ v) ∧ (∀ m, i.maxval = some m → v ≤ m)
  if i.inv then ¬ inside else inside

/-! ### C22 -/

/-- **C22** The values inferred from `x o c` are exactly the non-negative values of `x` for which it holds.
Missing, because the code differs: `x < c` with `c ≤ 0` (`C22_lessThan_zero_false`) and `<=`
(`C22_lessEq_raises`). -/
theorem C22_infer_partial (o : Op) (c : Int) (w : Option Int) (a b : Bool) (i : Inferred)
    (h : infer o (.ev (.int c) w a b) = .ok i) (hc : o = .lessThan → 0 < c) (v : Int) (hv : 0 ≤ v) (n : Nat) :
    InInferred v i ↔ ∃ x, opSem o [v, c] n = some x ∧ x ≠ 0 := by
  cases o <;> simp [infer] at h <;> subst h <;> simp [InInferred, opSem, b2i]
  · have := hc rfl
    split
    · omega
    · simp; omega
  · omega
  · omega
  · constructor
    · rintro h rfl; have := h (Int.le_refl _); omega
    · intro h1 h2; omega
  · omega
  · constructor
    · rintro h rfl; have := h (Int.le_refl _); omega
    · intro h1 h2; omega

/-- **C22** `infer` succeeds on integer constants for every comparison operator but `<=`. -/
theorem C22_infer_total (o : Op) (c : Int) (w : Option Int) (a b : Bool) :
    (∃ i, infer o (.ev (.int c) w a b) = .ok i) ↔
      o = .lessThan ∨ o = .greaterThan ∨ o = .greaterEq ∨ o = .eq ∨ o = .notEq ∨ o = .eql ∨ o = .notEql := by
  cases o <;> simp [infer]

/-- **C22** is false of the code: `<=` is rejected. -/
theorem C22_lessEq_raises (c : Int) (w : Option Int) (a b : Bool) : infer .lessEq (.ev (.int c) w a b) = .error .format :=
  rfl

/-- **C22** is false of the code: from `x < 0` it infers that `x` may have every value. -/
theorem C22_lessThan_zero_false : ∃ i, infer .lessThan (.evi 0 (some 32)) = .ok i ∧ ∀ v, InInferred v i :=
  ⟨_, rfl, by intro v; simp [InInferred]⟩

/-- Non-vacuity. -/
example : infer .greaterEq (.evi 3 (some 2)) = .ok ⟨some 3, none, false⟩ := rfl

/-! ### Sorting -/

theorem mem_insertAsc {x y : Int × Int} {l} : y ∈ insertAsc x l ↔ y = x ∨ y ∈ l := by
  induction l with
  | nil => simp [insertAsc]
  | cons a l ih =>
    simp only [insertAsc]
    split
    · simp
    · simp only [List.mem_cons, ih]; tauto

theorem mem_sortPairs {y : Int × Int} {l} : y ∈ sortPairs l ↔ y ∈ l := by
  induction l with
  | nil => simp [sortPairs]
  | cons a l ih =>
    have : sortPairs (a :: l) = insertAsc a (sortPairs l) := rfl
    rw [this, mem_insertAsc, ih, List.mem_cons]

/-- Sorted by first component. -/
abbrev Sorted (l : List (Int × Int)) : Prop := l.Pairwise (fun p q => p.1 ≤ q.1)

theorem sorted_insertAsc {x : Int × Int} {l} (h : Sorted l) : Sorted (insertAsc x l) := by
  induction l with
  | nil => simp [insertAsc]
  | cons a l ih =>
    simp only [List.pairwise_cons] at h
    simp only [insertAsc]
    split
    · rename_i hx
      simp only [List.pairwise_cons, List.mem_cons]
      refine ⟨?_, h⟩
      rintro y (rfl | hy)
      · exact hx
      · exact Int.le_trans hx (h.1 y hy)
    · rename_i hx
      simp only [List.pairwise_cons]
      refine ⟨?_, ih h.2⟩
      intro y hy
      rcases mem_insertAsc.mp hy with rfl | hy
      · omega
      · exact h.1 y hy

theorem sorted_sortPairs (l) : Sorted (sortPairs l) := by
  induction l with
  | nil => exact .nil
  | cons a l ih => exact sorted_insertAsc ih

theorem inRanges_sort {v l} : InRanges v (sortPairs l) ↔ InRanges v l := by
  simp [InRanges, mem_sortPairs]

/-! ### C20 -/

theorem notRangeLoop_spec (l : List (Int × Int)) (hs : Sorted l) (cur : Int) :
    cur ≤ (notRangeLoop cur l).2 ∧ (∀ p ∈ (notRangeLoop cur l).1, cur ≤ p.1 ∧ ∃ q ∈ l, p.2 = q.1 - 1) ∧
    ∀ v, cur ≤ v → ((InRanges v (notRangeLoop cur l).1 ∨ (notRangeLoop cur l).2 ≤ v) ↔ ¬ InRanges v l) := by
  induction l generalizing cur with
  | nil => simp [notRangeLoop, InRanges]
  | cons a l ih =>
    obtain ⟨rmin, rmax⟩ := a
    simp only [List.pairwise_cons] at hs
    obtain ⟨h1, h2, h3⟩ := ih hs.2 (max (rmax + 1) cur)
    have hlow : ∀ v, v < rmin → ¬ InRanges v l := by
      rintro v hv ⟨p, hp, h, _⟩
      have : rmin ≤ p.1 := hs.1 p hp
      omega
    refine ⟨?_, ?_, ?_⟩
    · simp only [notRangeLoop]; omega
    · intro p hp
      simp only [notRangeLoop] at hp
      have hold : p ∈ (notRangeLoop (max (rmax + 1) cur) l).1 → cur ≤ p.1 ∧ ∃ q ∈ (rmin, rmax) :: l, p.2 = q.1 - 1 := by
        intro hp
        obtain ⟨hh, q, hq, e⟩ := h2 p hp
        exact ⟨by omega, q, by simp [hq], e⟩
      split at hp
      · rcases List.mem_cons.mp hp with rfl | hp
        · exact ⟨Int.le_refl _, _, List.mem_cons_self .., rfl⟩
        · exact hold hp
      · exact hold hp
    · intro v hv
      have hcons : InRanges v ((rmin, rmax) :: l) ↔ (rmin ≤ v ∧ v ≤ rmax) ∨ InRanges v l := by
        simp [InRanges]
      have hres : InRanges v (notRangeLoop cur ((rmin, rmax) :: l)).1 ↔
          (v ≤ rmin - 1) ∨ InRanges v (notRangeLoop (max (rmax + 1) cur) l).1 := by
        simp only [notRangeLoop]
        split
        · simp only [InRanges, List.mem_cons, or_and_right, exists_or, exists_eq_left]
          constructor
          · rintro (⟨_, h⟩ | h)
            · exact .inl h
            · exact .inr h
          · rintro (h | h)
            · exact .inl ⟨hv, h⟩
            · exact .inr h
        · constructor
          · exact .inr
          · rintro (h | h)
            · omega
            · exact h
      have hsnd : (notRangeLoop cur ((rmin, rmax) :: l)).2 = (notRangeLoop (max (rmax + 1) cur) l).2 := rfl
      rw [hcons, hres, hsnd]
      by_cases hv2 : max (rmax + 1) cur ≤ v
      · have := h3 v hv2
        by_cases hlt : v ≤ rmin - 1
        · have := hlow v (by omega)
          constructor
          · intro _; push Not; exact ⟨fun _ => by omega, this⟩
          · intro _; exact .inl (.inl hlt)
        · rw [or_assoc, this]
          constructor
          · rintro (h | h)
            · exact absurd h hlt
            · rintro (h4 | h4)
              · omega
              · exact h h4
          · intro h; right; exact fun h4 => h (.inr h4)
      · have hno : ¬ InRanges v (notRangeLoop (max (rmax + 1) cur) l).1 := by
          rintro ⟨p, hp, h4, _⟩
          have := (h2 p hp).1
          omega
        have hno2 : ¬ (notRangeLoop (max (rmax + 1) cur) l).2 ≤ v := by omega
        by_cases hlt : v ≤ rmin - 1
        · constructor
          · intro _ h4
            rcases h4 with h4 | h4
            · omega
            · exact hlow v (by omega) h4
          · intro _; exact .inl (.inl hlt)
        · constructor
          · rintro ((h | h) | h)
            · exact absurd h hlt
            · exact absurd h hno
            · exact absurd h hno2
          · intro h; exact absurd (.inl ⟨by omega, by omega⟩) h

theorem inRanges_append {v l m} : InRanges v (l ++ m) ↔ InRanges v l ∨ InRanges v m := by
  simp only [InRanges, List.mem_append, or_and_right, exists_or]

/-- **C20** (complement) A state between the bounds is in the complement exactly when it is in none of the ranges,
whatever their order and overlaps. -/
theorem C20_complement (n : SNode) (v : Int) (h1 : n.minv ≤ v) (h2 : v ≤ n.maxv) :
    InRanges v (notRangePairs n) ↔ ¬ InRanges v n.ranges := by
  obtain ⟨_, _, h⟩ := notRangeLoop_spec _ (sorted_sortPairs n.ranges) n.minv
  have := h v h1
  rw [inRanges_sort] at this
  rw [← this]
  simp only [notRangePairs]
  split
  · rw [inRanges_append]
    simp [InRanges, h2]
  · constructor
    · exact .inl
    · rintro (h3 | h3)
      · exact h3
      · omega

/-- **C20** Negating a state node with ranges (none of them starting beyond the upper bound) and no transition
condition denotes exactly the states between the bounds that are outside the ranges. -/
theorem C20_negation_exact (ρ : Env) (n : SNode) (hr : ∀ p ∈ n.ranges, p.1 ≤ n.maxv + 1) (hm : n.minv = 0)
    (ha : n.isany = false) (ht : n.tc = none) :
    ∃ m, notStateNode n = .ok (.one m) ∧ ∀ v, InNode ρ v m ↔ 0 ≤ v ∧ v ≤ n.maxv ∧ ¬ InRanges v n.ranges := by
  refine ⟨{ ranges := notRangePairs n, maxv := n.maxv }, by simp [notStateNode, ha, ht], ?_⟩
  intro v
  simp only [InNode, Bool.false_eq_true, false_or]
  obtain ⟨h0, hb, _⟩ := notRangeLoop_spec _ (sorted_sortPairs n.ranges) n.minv
  have hin : InRanges v (notRangePairs n) → 0 ≤ v ∧ v ≤ n.maxv := by
    have key : InRanges v (notRangeLoop n.minv (sortPairs n.ranges)).1 → 0 ≤ v ∧ v ≤ n.maxv := by
      rintro ⟨p, hp, h1, h2⟩
      obtain ⟨h3, q, hq, e⟩ := hb p hp
      have := hr q (mem_sortPairs.mp hq)
      omega
    intro h
    simp only [notRangePairs] at h
    split at h
    · rw [inRanges_append] at h
      rcases h with h | h
      · exact key h
      · simp [InRanges] at h; omega
    · exact key h
  constructor
  · rintro ⟨h, _⟩
    obtain ⟨h1, h2⟩ := hin h
    exact ⟨h1, h2, (C20_complement n v (by omega) h2).mp h⟩
  · rintro ⟨h1, h2, h3⟩
    exact ⟨(C20_complement n v (by omega) h2).mpr h3, by simp⟩

/-- Non-vacuity: the complement of `{5..6, 1..2, 2..3}` in 0..7 is `{0, 4, 7}`. -/
example : notStateNode { ranges := [(5, 6), (1, 2), (2, 3)], maxv := 7 } =
    .ok (.one { ranges := [(0, 0), (4, 4), (7, 7)], maxv := 7 }) := by decide

/-! ### C21 -/

theorem sweep1 {A As B Bs : Prop} (d : As → B → A) : ((A ∧ B) ∨ ((A ∨ As) ∧ Bs)) ↔ ((A ∨ As) ∧ (B ∨ Bs)) := by tauto
theorem sweep2 {A As B Bs : Prop} (d : Bs → A → B) : ((A ∧ B) ∨ (As ∧ (B ∨ Bs))) ↔ ((A ∨ As) ∧ (B ∨ Bs)) := by tauto

theorem andRangeLoop_spec (v : Int) (a : Int × Int) (as : List (Int × Int)) (b : Int × Int) (bs : List (Int × Int))
    (ha : Sorted (a :: as)) (hb : Sorted (b :: bs)) :
    InRanges v (andRangeLoop a as b bs) ↔ InRanges v (a :: as) ∧ InRanges v (b :: bs) := by
  have cons : ∀ p l, InRanges v (p :: l) ↔ (p.1 ≤ v ∧ v ≤ p.2) ∨ InRanges v l := by
    intro p l; simp [InRanges]
  have hhere : ∀ a b : Int × Int, InRanges v (overlap a b) ↔
      (a.1 ≤ v ∧ v ≤ a.2) ∧ (b.1 ≤ v ∧ v ≤ b.2) := by
    intro a b
    unfold overlap
    split
    · simp only [InRanges, List.not_mem_nil, false_and, exists_false, false_iff]; omega
    · simp only [InRanges, List.mem_singleton, exists_eq_left]; omega
  have dropB : ∀ {a : Int × Int} {as : List (Int × Int)} {b : Int × Int}, Sorted (a :: as) → a.2 ≥ b.2 → InRanges v as → (b.1 ≤ v ∧ v ≤ b.2) →
      (a.1 ≤ v ∧ v ≤ a.2) := by
    rintro a as b hs hge ⟨p, hp, h1, h2⟩ hb
    simp only [List.pairwise_cons] at hs
    have := hs.1 p hp
    omega
  fun_induction andRangeLoop a as b bs with
  | case1 a as b b' bs' hge ih =>
    have hb' : Sorted (b' :: bs') := by simp only [List.pairwise_cons] at hb ⊢; exact hb.2
    rw [inRanges_append, hhere, propext (ih ha hb'), cons a as, cons b (b' :: bs')]
    exact sweep1 (dropB ha hge)
  | case2 a b b' bs' hlt a' as' ih =>
    have ha' : Sorted (a' :: as') := by simp only [List.pairwise_cons] at ha ⊢; exact ha.2
    rw [inRanges_append, hhere, propext (ih ha' hb), cons a, cons b (b' :: bs')]
    exact sweep2 (dropB hb (by omega))
  | case3 a b b' bs' hlt =>
    rw [hhere, cons a, cons b (b' :: bs')]
    have := dropB (as := b' :: bs') (b := a) hb (by omega)
    have hn : ¬ InRanges v [] := by simp [InRanges]
    tauto
  | case4 a b hle a' as' ih =>
    have ha' : Sorted (a' :: as') := by simp only [List.pairwise_cons] at ha ⊢; exact ha.2
    rw [inRanges_append, hhere, propext (ih ha' hb), cons a, cons b]
    have hn : ¬ InRanges v [] := by simp [InRanges]
    tauto
  | case5 a b hle =>
    rw [hhere, cons a, cons b]
    have hn : ¬ InRanges v [] := by simp [InRanges]
    tauto
  | case6 a as b hgt =>
    rw [hhere, cons a, cons b]
    have hn : ¬ InRanges v [] := by simp [InRanges]
    have := dropB (as := as) (b := b) ha (by omega)
    tauto

theorem inRanges_eraseDups {v l} : InRanges v l.eraseDups ↔ InRanges v l := by
  simp [InRanges]

theorem andRangePairs_spec (v : Int) (a b : List (Int × Int)) :
    InRanges v (andRangePairs a b) ↔ InRanges v a ∧ InRanges v b := by
  have sa := sorted_sortPairs a
  have sb := sorted_sortPairs b
  rw [← inRanges_sort (l := a), ← inRanges_sort (l := b)]
  unfold andRangePairs
  have hn : ¬ InRanges v [] := by simp [InRanges]
  cases h1 : sortPairs a with
  | nil => simp [hn]
  | cons x xs =>
    cases h2 : sortPairs b with
    | nil => simp [hn]
    | cons y ys =>
      rw [h1] at sa; rw [h2] at sb
      simp only
      rw [inRanges_eraseDups, andRangeLoop_spec v x xs y ys sa sb]

theorem holds_land {ρ : Env} {a b : DF} : Holds ρ (.op .land [a, b]) ↔ Holds ρ a ∧ Holds ρ b := by
  unfold Holds
  simp only [sem, semList]
  cases ha : sem ρ a with
  | none => simp
  | some x =>
    cases hb : sem ρ b with
    | none => simp
    | some y =>
      simp only [Option.bind_eq_bind, Option.bind_some, List.map, opSem, b2i]
      by_cases h1 : x.1 = 0 <;> by_cases h2 : y.1 = 0 <;> simp [h1, h2]

theorem andTranscond_spec {ρ : Env} {a b r : Option DF} (h : andTranscond a b = .ok r) :
    (∀ t, r = some t → Holds ρ t) ↔ (∀ t, a = some t → Holds ρ t) ∧ (∀ t, b = some t → Holds ρ t) := by
  rcases a with _ | a <;> rcases b with _ | b <;> simp only [andTranscond, bind_ok, ok_inj] at h
  · subst h; simp
  · subst h; simp
  · subst h; simp
  · obtain ⟨x, hx, rfl⟩ := h
    have : x = .op .land [a, b] := by
      simp only [DF.mkOp] at hx
      split at hx
      · simp at hx
      · simpa using hx.symm
    subst this
    simp [holds_land]

theorem andRanges_spec (v : Int) (a b : SNode) :
    ((andRanges a b).1 = true ∨ InRanges v (andRanges a b).2) ↔
      (a.isany = true ∨ InRanges v a.ranges) ∧ (b.isany = true ∨ InRanges v b.ranges) := by
  have hn : ¬ InRanges v [] := by simp [InRanges]
  unfold andRanges
  by_cases ha : a.isany = true <;> by_cases hb : b.isany = true <;> simp [ha, hb]
  by_cases h1 : 0 < a.ranges.length
  · by_cases h2 : 0 < b.ranges.length
    · simp [h1, h2, andRangePairs_spec]
    · have : b.ranges = [] := by simpa using h2
      simp [this, hn]
  · have : a.ranges = [] := by simpa using h1
    simp [this, hn]

/-- **C21** The conjunction of two state nodes denotes exactly the states (and transition conditions) of both: when
it is a node, that node does; when there is none, they have no state in common. -/
theorem C21_conjunction_exact (ρ : Env) (a b : SNode) (r : Option SNode) (h : andStateNode a b = .ok r) (v : Int) :
    (∃ n, r = some n ∧ InNode ρ v n) ↔ InNode ρ v a ∧ InNode ρ v b := by
  have hs := andRanges_spec v a b
  unfold andStateNode at h
  generalize andRanges a b = x at h hs
  obtain ⟨isany, ranges⟩ := x
  simp only at h hs
  split at h
  · rename_i hc
    simp only [ok_inj] at h
    subst h
    have : ranges = [] := by simpa using hc.2
    simp only [hc.1, this, Bool.false_eq_true, false_or] at hs
    have hn : ¬ InRanges v [] := by simp [InRanges]
    simp only [reduceCtorEq, false_and, exists_false, false_iff, InNode]
    tauto
  · simp only [bind_ok, ok_inj] at h
    obtain ⟨tc, htc, rfl⟩ := h
    simp only [Option.some.injEq, exists_eq_left', InNode]
    rw [hs, andTranscond_spec (ρ := ρ) htc]
    tauto

/-- **C21** The conjunction never fails on nodes whose transition conditions are present. -/
theorem C21_conjunction_total (a b : SNode) (ha : a.tc ≠ some .none) (hb : b.tc ≠ some .none) :
    ∃ r, andStateNode a b = .ok r := by
  unfold andStateNode
  generalize andRanges a b = x
  obtain ⟨isany, ranges⟩ := x
  simp only
  split
  · exact ⟨_, rfl⟩
  · have : ∃ r, andTranscond a.tc b.tc = .ok r := by
      cases h1 : a.tc with
      | none => cases h2 : b.tc <;> exact ⟨_, rfl⟩
      | some x =>
        cases h2 : b.tc with
        | none => exact ⟨_, rfl⟩
        | some y =>
          rw [h1] at ha; rw [h2] at hb
          have hm : DF.mkOp .land [x, y] = .ok (.op .land [x, y]) := by
            simp only [DF.mkOp]
            rw [if_neg]
            simp at ha hb ⊢
            exact ⟨Ne.symm ha, Ne.symm hb⟩
          exact ⟨_, by simp only [andTranscond, hm]; rfl⟩
    obtain ⟨r, hr⟩ := this
    exact ⟨_, by rw [hr]; rfl⟩

/-- Non-vacuity: overlapping, unsorted ranges. -/
example : andStateNode { ranges := [(9, 12), (0, 5), (1, 2)], maxv := 15 } { ranges := [(2, 10), (4, 4)], maxv := 15 } =
    .ok (some { ranges := [(2, 5), (2, 2), (9, 10)], maxv := 15 }) := by
  rw [andStateNode]; decide +kernel

end Pyv
