import Verif.Props.ARangeOps
/-
  C93: what the conditions of a tree are read as.
-/
namespace Pyv

/-! ### Negations -/

theorem live_ranges {t : ATerm} (l : t.Live) : t.ranges ≠ [] := by
  obtain ⟨⟨x, _, _, p, hp, _⟩, _⟩ := l
  intro e; rw [e] at hp; cases hp

theorem opNot_live {t t' : ATerm} (h : t.opNot = .ok t') (l : t.Live) (hm : t.minv = 0) : t'.Live := by
  obtain ⟨_, _, e3, e4⟩ := opNot_spec h (live_ranges l)
  obtain ⟨⟨x, a1, a2, a3⟩, y, b1, b2, b3⟩ := l
  rw [hm] at e4
  exact ⟨⟨y, b1, by rw [e3]; exact b2, (e4 y b1 b2).mpr b3⟩, x, a1, by rw [e3]; exact a2, fun h => (e4 x a1 a2).mp h a3⟩

theorem opNot_is {ρ : Env} {width h h' n r t t'} {w : Nat} (hρ : InWidth ρ width) (ht : h[r]? = some t) (ht' : h'[r]? = some t') (hn : t.opNot = .ok t')
    (l : t.Live) (hm : t.minv = 0) (hw : width n = .ok w) (hx : t.maxv = 2 ^ w - 1) : TermIs h' ρ n r ↔ ¬ TermIs h ρ n r := by
  obtain ⟨_, _, _, e4⟩ := opNot_spec hn (live_ranges l)
  obtain ⟨x, b, h1, h2, h3⟩ := hρ n w hw
  have := e4 x (by omega) (by omega)
  simp only [TermIs, ht, ht', h1, Option.some.injEq, exists_eq_left', Prod.mk.injEq]
  constructor
  · rintro ⟨_, _, ⟨rfl, rfl⟩, h4⟩ ⟨_, _, ⟨rfl, rfl⟩, h5⟩
    exact this.mp h4 h5
  · intro hh
    exact ⟨x, b, ⟨rfl, rfl⟩, this.mpr (fun h4 => hh ⟨x, b, ⟨rfl, rfl⟩, h4⟩)⟩

theorem notAll_spec : ∀ (rs : List Nat) (h h' : AHeap), rs.Nodup → h.notAll rs = .ok h' →
    h'.length = h.length ∧ (∀ q, q ∉ rs → h'[q]? = h[q]?) ∧ ∀ q ∈ rs, ∃ t t', h[q]? = some t ∧ t.opNot = .ok t' ∧ h'[q]? = some t' := by
  intro rs
  induction rs with
  | nil =>
    intro h h' _ he
    simp only [AHeap.notAll, ok_inj] at he
    subst he
    exact ⟨rfl, fun _ _ => rfl, by simp⟩
  | cons r rs ih =>
    intro h h' hn he
    simp only [List.nodup_cons] at hn
    simp only [AHeap.notAll, bind_ok] at he
    obtain ⟨h1, he1, he⟩ := he
    obtain ⟨i1, i2, i3⟩ := ih h1 h' hn.2 he
    simp only [AHeap.opNot] at he1
    cases ht : h[r]? with
    | none => rw [ht] at he1; cases he1
    | some t =>
      rw [ht] at he1
      simp only [bind_ok, ok_inj] at he1
      obtain ⟨t', ht', rfl⟩ := he1
      have hlt : r < h.length := (List.getElem?_eq_some_iff.mp ht).1
      refine ⟨by rw [i1]; simp, ?_, ?_⟩
      · intro q hq
        simp only [List.mem_cons, not_or] at hq
        rw [i2 q hq.2, List.getElem?_set_ne (Ne.symm hq.1)]
      · intro q hq
        rcases List.mem_cons.mp hq with rfl | hq
        · exact ⟨t, t', ht, ht', by rw [i2 q hn.1]; simp [hlt]⟩
        · obtain ⟨u, u', a1, a2, a3⟩ := i3 q hq
          rw [List.getElem?_set_ne (by rintro rfl; exact hn.1 hq)] at a1
          exact ⟨u, u', a1, a2, a3⟩

theorem refs_nodup {width N lo hi h c} (t : TermsAt width N lo hi h c) : (c.map (·.2)).Nodup := by
  have hn : (c.map (·.1)).Nodup := t.1
  have : ∀ p ∈ c, ∀ q ∈ c, p.2 = q.2 → p.1 = q.1 := by
    intro p hp q hq e
    obtain ⟨_, _, _, u, h1, h2, _⟩ := t.2 p hp
    obtain ⟨_, _, _, v, h3, h4, _⟩ := t.2 q hq
    rw [e, h3] at h1
    cases h1
    rw [← h2, ← h4]
  rw [List.nodup_map_iff_inj_on (List.Nodup.of_map _ hn)]
  intro p hp q hq e
  exact Prod.ext (this p hp q hq e) e

/-- A negation. -/
theorem activeNot_denotes {width N P lo hi} {h h' : AHeap} {a : AC} {k k' : AKind} {x : Option AC}
    (d : RangeDenotes width N P lo hi h a k) (hk : negKind N k = some k') (hx : activeNot h (some a) = .ok (x, h')) :
    ∃ c, x = some c ∧ RangeDenotes width N (fun ρ => ¬ P ρ) lo hi h' c k' ∧ (∀ q, (q < lo ∨ hi ≤ q) → h'[q]? = h[q]?) ∧ h'.length = h.length := by
  have hN : N.Nodup := by
    cases k <;> simp only [negKind] at hk <;> first | (split at hk <;> first | assumption | cases hk) | cases hk
  obtain ⟨c, hc, tc, pc, lc⟩ := d.conj (by rintro rfl; cases hk)
  have hkind := d.kind
  have lc := lc hN
  cases a with
  | list cs => subst hkind; cases hk
  | term r =>
    simp only [AC.kind] at hkind
    subst hkind
    simp only [negKind, if_pos hN, Option.some.injEq] at hk
    subst hk
    simp only [activeNot, bind_ok, ok_inj, Prod.mk.injEq] at hx
    obtain ⟨h1, he, rfl, rfl⟩ := hx
    simp only [AC.conds, bind_ok, ok_inj] at hc
    obtain ⟨c1, hs, hc⟩ := hc
    simp only [List.cons.injEq, and_true] at hc
    subst hc
    simp only [single] at hs
    cases ht : h[r]? with
    | none => rw [ht] at hs; cases hs
    | some t =>
      rw [ht] at hs
      simp only [ok_inj] at hs
      subst hs
      obtain ⟨a1, a2, a3, u, a4, a5, a6, w, a7, a8⟩ := tc.2 (t.name, r) (by simp)
      simp only at a1 a2 a3 a4 a5 a7
      rw [ht] at a4; cases a4
      have hlive := lc (t.name, r) (by simp) t ht
      simp only [AHeap.opNot, ht, bind_ok, ok_inj] at he
      obtain ⟨t', ht', rfl⟩ := he
      have hlt : r < h.length := (List.getElem?_eq_some_iff.mp ht).1
      have hget : (h.set r t')[r]? = some t' := by simp [hlt]
      obtain ⟨n1, n2, n3, n4⟩ := opNot_spec ht' (live_ranges hlive)
      refine ⟨_, rfl, ⟨rfl, [[(t.name, r)]], ?_, ?_, ?_, ?_⟩, ?_, by simp⟩
      · simp [AC.conds, single, hget, ok_bind, n1]
      · intro c hc
        simp only [List.mem_singleton] at hc
        subst hc
        refine ⟨by simp [Dict.Nodup], ?_⟩
        intro p hp
        simp only [List.mem_singleton] at hp
        subst hp
        exact ⟨a1, a2, a3, t', hget, n1, n2.trans a6, w, a7, n3.trans a8⟩
      · intro ρ hρ
        rw [← pc ρ hρ]
        simp only [List.mem_singleton, exists_eq_left, CondIs, forall_eq]
        exact opNot_is hρ ht hget ht' hlive a6 a7 a8
      · intro _ c hc
        simp only [List.mem_singleton] at hc
        subst hc
        intro p hp v hv
        simp only [List.mem_singleton] at hp
        subst hp
        simp only at hv
        rw [hget] at hv; cases hv
        exact opNot_live ht' hlive a6
      · intro q hq
        rw [List.getElem?_set_ne (by omega)]
  | cond c0 =>
    simp only [AC.kind] at hkind
    subst hkind
    simp only [negKind, if_pos hN, Option.some.injEq] at hk
    subst hk
    simp only [AC.conds, ok_inj, List.cons.injEq, and_true] at hc
    subst hc
    simp only [activeNot, bind_ok, ok_inj, Prod.mk.injEq] at hx
    obtain ⟨h1, he, rfl, rfl⟩ := hx
    obtain ⟨s1, s2, s3⟩ := notAll_spec _ _ _ (refs_nodup tc) he
    have each : ∀ p ∈ c0, ∃ t t', h[p.2]? = some t ∧ t.opNot = .ok t' ∧ h1[p.2]? = some t' := fun p hp => s3 p.2 (List.mem_map.mpr ⟨p, hp, rfl⟩)
    refine ⟨_, rfl, ⟨rfl, _, rfl, ?_, ?_, ?_⟩, ?_, s1⟩
    · intro c hc
      rw [List.mem_map] at hc
      obtain ⟨p, hp, rfl⟩ := hc
      refine ⟨by simp [Dict.Nodup], ?_⟩
      intro q hq
      simp only [List.mem_singleton] at hq
      subst hq
      obtain ⟨a1, a2, a3, t, a4, a5, a6, w, a7, a8⟩ := tc.2 q hp
      obtain ⟨u, t', b1, b2, b3⟩ := each q hp
      rw [a4] at b1; cases b1
      obtain ⟨n1, n2, n3, _⟩ := opNot_spec b2 (live_ranges (lc q hp t a4))
      exact ⟨a1, a2, a3, t', b3, n1.trans a5, n2.trans a6, w, a7, n3.trans a8⟩
    · intro ρ hρ
      rw [← pc ρ hρ]
      have key : ∀ p ∈ c0, (TermIs h1 ρ p.1 p.2 ↔ ¬ TermIs h ρ p.1 p.2) := by
        intro p hp
        obtain ⟨a1, a2, a3, t, a4, a5, a6, w, a7, a8⟩ := tc.2 p hp
        obtain ⟨u, t', b1, b2, b3⟩ := each p hp
        rw [a4] at b1; cases b1
        exact opNot_is hρ a4 b3 b2 (lc p hp t a4) a6 a7 a8
      simp only [List.mem_map, exists_exists_and_eq_and, CondIs, List.mem_singleton, forall_eq]
      constructor
      · rintro ⟨p, hp, h2⟩ hall
        exact (key p hp).mp h2 (hall p hp)
      · intro hn
        by_contra hcon
        exact hn (fun p hp => by
          by_contra h3
          exact hcon ⟨p, hp, (key p hp).mpr h3⟩)
    · intro _ c hc
      rw [List.mem_map] at hc
      obtain ⟨p, hp, rfl⟩ := hc
      intro q hq v hv
      simp only [List.mem_singleton] at hq
      subst hq
      obtain ⟨a1, a2, a3, t, a4, a5, a6, w, a7, a8⟩ := tc.2 q hp
      obtain ⟨u, t', b1, b2, b3⟩ := each q hp
      rw [a4] at b1; cases b1
      rw [b3] at hv; cases hv
      exact opNot_live b2 (lc q hp t a4) a6
    · intro q hq
      refine s2 q ?_
      intro hm
      rw [List.mem_map] at hm
      obtain ⟨p, hp, rfl⟩ := hm
      obtain ⟨a1, a2, _⟩ := tc.2 p hp
      omega

/-! ### Comparisons -/

/-- The comparison of two numbers. -/
def cmpB (o : Op) (x c : Int) : Bool :=
  match o with
  | .lessThan => decide (x < c)
  | .greaterThan => decide (c < x)
  | .greaterEq => decide (c ≤ x)
  | .eq => decide (x = c)
  | .eql => decide (x = c)
  | _ => false

theorem atom_left {o : Op} {c : Int} {w : Nat} (hp : properCmp o c w = true) {ρ : Env} {n : ScopeChain} {x b : Int} (hs : ρ.sig n = some (x, b)) (ww f s) :
    sem ρ (.op o [.term n, .ev (.int c) ww f s]) = some (b2i (cmpB o x c), 1) := by
  cases o <;> simp [properCmp] at hp <;> simp [sem, semList, hs, opSem, cmpB, opWidth, Op.maxRule, Op.leftRule]

theorem atom_right {o o' : Op} {c : Int} {w : Nat} (ho : mirrored o = some o') (hp : properCmp o' c w = true) {ρ : Env} {n : ScopeChain} {x b : Int}
    (hs : ρ.sig n = some (x, b)) (ww f s) : sem ρ (.op o [.ev (.int c) ww f s, .term n]) = some (b2i (cmpB o' x c), 1) := by
  cases o <;> simp only [mirrored, Option.some.injEq, reduceCtorEq] at ho <;> subst ho <;>
    simp [sem, semList, hs, opSem, cmpB, opWidth, Op.maxRule, Op.leftRule, @eq_comm Int c x]

theorem b2i_ne0 {b : Bool} : b2i b ≠ 0 ↔ b = true := by cases b <;> simp [b2i]

/-- The term made for a comparison. -/
theorem rangeTerm_denotes {width : ScopeChain → Py Nat} {o : Op} {n : ScopeChain} {c : Int} {ww f s} {h h' : AHeap} {x : Option AC} {k : AKind}
    (hk : atomKind width o n c = some k) (hx : rangeTerm width o n (.ev (.int c) ww f s) h = .ok (x, h')) :
    ∃ a, x = some a ∧ RangeDenotes width [n] (fun ρ => ∃ y w, ρ.sig n = some (y, w) ∧ cmpB o y c = true) h.length h'.length h' a k ∧ h.length ≤ h'.length ∧
      ∀ q, q < h.length → h'[q]? = h[q]? := by
  simp only [atomKind] at hk
  cases hw : width n with
  | error e => rw [hw] at hk; cases hk
  | ok w =>
    rw [hw] at hk
    simp only at hk
    split at hk
    case isFalse => cases hk
    rename_i hp
    simp only [Option.some.injEq] at hk
    subst hk
    simp only [rangeTerm, hw, bind_ok, ok_inj, Prod.mk.injEq] at hx
    obtain ⟨i, hi, w', rfl, rfl, rfl⟩ := hx
    have hhas : ∀ y, ATerm.Has ⟨n, [(i.minval, i.maxval)], 0, maxVal w⟩ y ↔ (ARange.Has (i.minval, i.maxval) y) := by
      intro y; simp [ATerm.Has]
    have key : ∀ y, 0 ≤ y → (ARange.Has (i.minval, i.maxval) y ↔ cmpB o y c = true) := by
      intro y hy
      cases o <;> simp [properCmp] at hp <;> simp only [infer, ok_inj] at hi <;> subst hi
      all_goals (try simp [ARange.Has, cmpB]) <;> try omega
      rw [if_neg (by omega)]
      simp
      omega
    have hget : (h ++ [⟨n, [(i.minval, i.maxval)], 0, maxVal w⟩])[h.length]? = some ⟨n, [(i.minval, i.maxval)], 0, maxVal w⟩ := by simp
    refine ⟨_, rfl, ⟨rfl, [[(n, h.length)]], ?_, ?_, ?_, ?_⟩, by simp, fun q hq => by rw [List.getElem?_append_left hq]⟩
    · simp [AC.conds, single, hget, ok_bind]
    · intro c hc
      simp only [List.mem_singleton] at hc
      subst hc
      refine ⟨by simp [Dict.Nodup], ?_⟩
      intro p hp
      simp only [List.mem_singleton] at hp
      subst hp
      exact ⟨Nat.le_refl _, by simp, by simp, _, hget, rfl, rfl, w, hw, rfl⟩
    · intro ρ hρ
      obtain ⟨y, b, h1, h2, h3⟩ := hρ n w hw
      simp only [List.mem_singleton, exists_eq_left, CondIs, forall_eq, TermIs, hget, Option.some.injEq, exists_eq_left', h1, Prod.mk.injEq]
      constructor
      · rintro ⟨_, _, ⟨rfl, rfl⟩, h4⟩
        exact ⟨_, _, ⟨rfl, rfl⟩, (key _ h2).mp ((hhas _).mp h4)⟩
      · rintro ⟨_, _, ⟨rfl, rfl⟩, h4⟩
        exact ⟨_, _, ⟨rfl, rfl⟩, (hhas _).mpr ((key _ h2).mpr h4)⟩
    · intro _ c' hc
      simp only [List.mem_singleton] at hc
      subst hc
      intro p hp' t ht
      simp only [List.mem_singleton] at hp'
      subst hp'
      simp only [hget, Option.some.injEq] at ht
      subst ht
      have h2w : (2 : Int) ^ w ≥ 1 := by exact_mod_cast Nat.one_le_two_pow
      have h2w' : 0 < w → (2 : Int) ^ w ≥ 2 := fun h => by exact_mod_cast Nat.le_self_pow (by omega) 2
      have sat : ∃ y, 0 ≤ y ∧ y ≤ (2 : Int) ^ w - 1 ∧ cmpB o y c = true := by
        cases o <;> simp [properCmp] at hp <;> simp only [cmpB, decide_eq_true_eq]
        · exact ⟨0, by omega, by omega, by omega⟩
        · exact ⟨2 ^ w - 1, by omega, by omega, by omega⟩
        · exact ⟨2 ^ w - 1, by omega, by omega, by omega⟩
        · exact ⟨c, by omega, by omega, rfl⟩
        · exact ⟨c, by omega, by omega, rfl⟩
      have uns : ∃ y, 0 ≤ y ∧ y ≤ (2 : Int) ^ w - 1 ∧ ¬ cmpB o y c = true := by
        cases o <;> simp [properCmp] at hp <;> simp only [cmpB, decide_eq_true_eq]
        · exact ⟨2 ^ w - 1, by omega, by omega, by omega⟩
        · exact ⟨0, by omega, by omega, by omega⟩
        · exact ⟨0, by omega, by omega, by omega⟩
        · have := h2w' hp.2.2
          exact ⟨if c = 0 then 1 else 0, by split <;> omega, by split <;> omega, by split <;> omega⟩
        · have := h2w' hp.2.2
          exact ⟨if c = 0 then 1 else 0, by split <;> omega, by split <;> omega, by split <;> omega⟩
      obtain ⟨y, y1, y2, y3⟩ := sat
      obtain ⟨z, z1, z2, z3⟩ := uns
      exact ⟨⟨y, y1, y2, (hhas y).mpr ((key y y1).mpr y3)⟩, z, z1, z2, fun hh => z3 ((key z z1).mp ((hhas z).mp hh))⟩

/-! ### Values of the covered conditions -/

theorem pyAnd_bool {x y : Int} (hx : x = 0 ∨ x = 1) (hy : y = 0 ∨ y = 1) : pyAnd x y = b2i (decide (x ≠ 0 ∧ y ≠ 0)) := by
  rcases hx with rfl | rfl <;> rcases hy with rfl | rfl <;> decide +kernel

theorem pyOr_bool {x y : Int} (hx : x = 0 ∨ x = 1) (hy : y = 0 ∨ y = 1) : pyOr x y = 0 ∨ pyOr x y = 1 := by
  rcases hx with rfl | rfl <;> rcases hy with rfl | rfl <;> decide +kernel

theorem b2i_bool (b : Bool) : b2i b = 0 ∨ b2i b = 1 := by cases b <;> simp [b2i]

theorem atomKind_ok {width : ScopeChain → Py Nat} {o n c k} (h : atomKind width o n c = some k) : ∃ w, width n = .ok w ∧ properCmp o c w = true := by
  simp only [atomKind] at h
  split at h
  · split at h
    · exact ⟨_, by assumption, by assumption⟩
    · cases h
  · cases h

/-- `x == 1`, `x != 0`, `x == 0`, `x != 1` for a condition. -/
theorem eq_left {ρ : Env} {l : DF} {o : Op} {c : Int} {v : Int × Int} (hv : sem ρ l = some v) (hb : v.1 = 0 ∨ v.1 = 1) (ww f s) :
    ((o = .eq ∧ c = 1) ∨ (o = .notEq ∧ c = 0) → sem ρ (.op o [l, .ev (.int c) ww f s]) = some (b2i (decide (v.1 ≠ 0)), 1) ∧
      sem ρ (.op o [.ev (.int c) ww f s, l]) = some (b2i (decide (v.1 ≠ 0)), 1)) ∧
    ((o = .eq ∧ c = 0) ∨ (o = .notEq ∧ c = 1) → sem ρ (.op o [l, .ev (.int c) ww f s]) = some (b2i (decide (v.1 = 0)), 1) ∧
      sem ρ (.op o [.ev (.int c) ww f s, l]) = some (b2i (decide (v.1 = 0)), 1)) := by
  refine ⟨?_, ?_⟩ <;> rintro (⟨rfl, rfl⟩ | ⟨rfl, rfl⟩) <;> rcases hb with hb | hb <;>
    simp [sem, semList, hv, opSem, opWidth, Op.maxRule, Op.leftRule, hb, b2i]

theorem eqKind_cases {N : List ScopeChain} {o c k k'} (h : eqKind N o c k = some k') :
    (((o = .eq ∧ c = 1) ∨ (o = .notEq ∧ c = 0)) ∧ k' = k) ∨ (((o = .eq ∧ c = 0) ∨ (o = .notEq ∧ c = 1)) ∧ negKind N k = some k') := by
  simp only [eqKind] at h
  split at h
  · rename_i h1
    simp only [Option.some.injEq] at h
    exact .inl ⟨h1, h.symm⟩
  · split at h
    · rename_i h1
      exact .inr ⟨h1, h⟩
    · cases h

theorem rangeKind_one {width : ScopeChain → Py Nat} {o : Op} {x : DF} {k : AKind} (h : rangeKind width (.op o [x]) = some k) :
    o = .ulnot ∧ ∃ a, rangeKind width x = some a ∧ negKind x.terms a = some k := by
  rw [rangeKind] at h
  split at h
  case isFalse => cases h
  rename_i ho
  simp only [Option.bind_eq_some_iff] at h
  exact ⟨ho, h⟩

/-- The cases of a covered condition with two operands. -/
theorem rangeKind_two {width : ScopeChain → Py Nat} {o : Op} {l r : DF} {k : AKind} (h : rangeKind width (.op o [l, r]) = some k) :
    ((o = .lor ∨ o = .or) ∧ k = .list ∧ ∃ a b, rangeKind width l = some a ∧ rangeKind width r = some b) ∨
    ((o = .land ∨ (o = .and ∧ boolish l = true ∧ boolish r = true)) ∧ ∃ a b, rangeKind width l = some a ∧ rangeKind width r = some b ∧
      conjKind l.terms r.terms a b = some k) ∨
    (¬ (o = .or ∨ o = .lor) ∧ ¬ (o = .and ∨ o = .land) ∧
      ((∃ n c w f s, l = .term n ∧ r = .ev (.int c) w f s ∧ atomKind width o n c = some k) ∨
       (∃ n c w f s o', l = .ev (.int c) w f s ∧ r = .term n ∧ mirrored o = some o' ∧ atomKind width o' n c = some k) ∨
       (∃ c w f s a, r = .ev (.int c) w f s ∧ (∃ u ns, l = .op u ns) ∧ boolish l = true ∧ rangeKind width l = some a ∧ eqKind l.terms o c a = some k) ∨
       (∃ c w f s a, l = .ev (.int c) w f s ∧ (∃ u ns, r = .op u ns) ∧ boolish r = true ∧ rangeKind width r = some a ∧ eqKind r.terms o c a = some k))) := by
  rw [rangeKind] at h
  by_cases h1 : o = .lor ∨ o = .or
  · rw [if_pos h1] at h
    simp only [Option.bind_eq_some_iff, Option.some.injEq] at h
    obtain ⟨a, ha, b, hb, rfl⟩ := h
    exact .inl ⟨h1, rfl, a, b, ha, hb⟩
  · rw [if_neg h1] at h
    by_cases h2 : o = .land ∨ (o = .and ∧ boolish l = true ∧ boolish r = true)
    · rw [if_pos h2] at h
      simp only [Option.bind_eq_some_iff] at h
      obtain ⟨a, ha, b, hb, h⟩ := h
      exact .inr (.inl ⟨h2, a, b, ha, hb, h⟩)
    · rw [if_neg h2] at h
      have hand : o ≠ .and := by
        rintro rfl
        simp only [cmpKind] at h
        split at h
        · obtain ⟨_, _, hp⟩ := atomKind_ok h; simp [properCmp] at hp
        · simp [mirrored] at h
        · split at h
          · simp only [Option.bind_eq_some_iff] at h
            obtain ⟨_, _, h⟩ := h
            simp [eqKind] at h
          · cases h
        · split at h
          · simp only [Option.bind_eq_some_iff] at h
            obtain ⟨_, _, h⟩ := h
            simp [eqKind] at h
          · cases h
        · cases h
      refine .inr (.inr ⟨fun h => h1 h.symm, ?_, ?_⟩)
      · rintro (rfl | rfl)
        · exact hand rfl
        · exact h2 (.inl rfl)
      · simp only [cmpKind] at h
        split at h
        · exact .inl ⟨_, _, _, _, _, rfl, rfl, h⟩
        · simp only [Option.bind_eq_some_iff] at h
          obtain ⟨o', ho, h⟩ := h
          exact .inr (.inl ⟨_, _, _, _, _, o', rfl, rfl, ho, h⟩)
        · split at h
          case isFalse => cases h
          rename_i hb
          simp only [Option.bind_eq_some_iff] at h
          obtain ⟨a, ha, h⟩ := h
          exact .inr (.inr (.inl ⟨_, _, _, _, a, rfl, ⟨_, _, rfl⟩, hb, ha, h⟩))
        · split at h
          case isFalse => cases h
          rename_i hb
          simp only [Option.bind_eq_some_iff] at h
          obtain ⟨a, ha, h⟩ := h
          exact .inr (.inr (.inr ⟨_, _, _, _, a, rfl, ⟨_, _, rfl⟩, hb, ha, h⟩))
        · cases h

theorem rangeKind_value {width : ScopeChain → Py Nat} {ρ : Env} (hρ : InWidth ρ width) (c : DF) : ∀ k, rangeKind width c = some k →
    ∃ x, sem ρ c = some x ∧ (boolish c = true → x.1 = 0 ∨ x.1 = 1) := by
  induction c using DF.ind with
  | term n =>
    intro k h
    rw [rangeKind] at h
    obtain ⟨w, hw, _⟩ := atomKind_ok h
    obtain ⟨x, b, hx, _⟩ := hρ n w hw
    exact ⟨_, by simp only [sem]; exact hx, by simp [boolish]⟩
  | op o ns ih =>
    intro k h
    match ns, ih, h with
    | [], _, h => simp [rangeKind] at h
    | [x], ih, h =>
      obtain ⟨rfl, a, ha, _⟩ := rangeKind_one h
      obtain ⟨v, hv, _⟩ := ih x (by simp) a ha
      refine ⟨(b2i (decide (v.1 = 0)), 1), by simp [sem, semList, hv, opSem, opWidth, Op.maxRule, Op.leftRule], fun _ => b2i_bool _⟩
    | [l, r], ih, h =>
      rcases rangeKind_two h with ⟨ho, _, a, b, ha, hb⟩ | ⟨ho, a, b, ha, hb, _⟩ | ⟨_, _, h⟩
      · obtain ⟨x, hx, hx'⟩ := ih l (by simp) a ha
        obtain ⟨y, hy, hy'⟩ := ih r (by simp) b hb
        rcases ho with rfl | rfl
        · refine ⟨(b2i (decide (x.1 ≠ 0 ∨ y.1 ≠ 0)), 1), by simp [sem, semList, hx, hy, opSem, opWidth, Op.maxRule, Op.leftRule], fun _ => b2i_bool _⟩
        · refine ⟨_, by simp only [sem, semList, hx, hy]; rfl, fun hbo => ?_⟩
          simp only [boolish, or_true, if_true, Bool.and_eq_true] at hbo
          exact pyOr_bool (hx' hbo.1) (hy' hbo.2)
      · obtain ⟨x, hx, hx'⟩ := ih l (by simp) a ha
        obtain ⟨y, hy, hy'⟩ := ih r (by simp) b hb
        rcases ho with rfl | ⟨rfl, h1, h2⟩
        · refine ⟨(b2i (decide (x.1 ≠ 0 ∧ y.1 ≠ 0)), 1), by simp [sem, semList, hx, hy, opSem, opWidth, Op.maxRule, Op.leftRule], fun _ => b2i_bool _⟩
        · refine ⟨_, by simp only [sem, semList, hx, hy]; rfl, fun _ => ?_⟩
          simp only [pyAnd_bool (hx' h1) (hy' h2)]
          exact b2i_bool _
      · rcases h with ⟨n, c, w, f, s, rfl, rfl, hk⟩ | ⟨n, c, w, f, s, o', rfl, rfl, ho, hk⟩ | ⟨c, w, f, s, a, rfl, _, hb, ha, hk⟩ | ⟨c, w, f, s, a, rfl, _, hb, ha, hk⟩
        · obtain ⟨w', hw, hp⟩ := atomKind_ok hk
          obtain ⟨x, b, hx, _⟩ := hρ n w' hw
          exact ⟨_, atom_left hp hx w f s, fun _ => b2i_bool _⟩
        · obtain ⟨w', hw, hp⟩ := atomKind_ok hk
          obtain ⟨x, b, hx, _⟩ := hρ n w' hw
          exact ⟨_, atom_right ho hp hx w f s, fun _ => b2i_bool _⟩
        · obtain ⟨x, hx, hx'⟩ := ih l (by simp) a ha
          rcases eqKind_cases hk with ⟨e, _⟩ | ⟨e, _⟩
          · exact ⟨_, ((eq_left hx (hx' hb) w f s).1 e).1, fun _ => b2i_bool _⟩
          · exact ⟨_, ((eq_left hx (hx' hb) w f s).2 e).1, fun _ => b2i_bool _⟩
        · obtain ⟨x, hx, hx'⟩ := ih r (by simp) a ha
          rcases eqKind_cases hk with ⟨e, _⟩ | ⟨e, _⟩
          · exact ⟨_, ((eq_left hx (hx' hb) w f s).1 e).2, fun _ => b2i_bool _⟩
          · exact ⟨_, ((eq_left hx (hx' hb) w f s).2 e).2, fun _ => b2i_bool _⟩
    | _ :: _ :: _ :: _, _, h => simp [rangeKind] at h
  | _ => intro k h; simp [rangeKind] at h

theorem holds_b2i {ρ : Env} {c : DF} {b : Bool} {w : Int} (h : sem ρ c = some (b2i b, w)) : Holds ρ c ↔ b = true := by
  simp only [Holds, h, Option.some.injEq, exists_eq_left']
  exact b2i_ne0

/-! ### The walk -/

theorem RangeDenotes.names {width N M P lo hi h a k} (d : RangeDenotes width N P lo hi h a k) (e : N = M) : RangeDenotes width M P lo hi h a k := e ▸ d

theorem walkActive_denotes {width : ScopeChain → Py Nat} (c : DF) : ∀ (h : AHeap) (x : Option AC) (h' : AHeap) (k : AKind), rangeKind width c = some k →
    walkActive width c h = .ok (x, h') →
    ∃ a, x = some a ∧ RangeDenotes width c.terms (fun ρ => Holds ρ c) h.length h'.length h' a k ∧ h.length ≤ h'.length ∧ ∀ q, q < h.length → h'[q]? = h[q]? := by
  induction c using DF.ind with
  | term n =>
    intro h x h' k hk hx
    rw [rangeKind] at hk
    rw [walkActive] at hx
    obtain ⟨a, rfl, d, h1, h2⟩ := rangeTerm_denotes hk hx
    refine ⟨a, rfl, (d.names (by simp [DF.terms])).imp ?_, h1, h2⟩
    intro ρ hρ
    obtain ⟨w, hw, _⟩ := atomKind_ok hk
    obtain ⟨y, b, hy, h3, _⟩ := hρ n w hw
    simp only [Holds, sem, hy, Option.some.injEq, exists_eq_left', Prod.mk.injEq, cmpB, decide_eq_true_eq]
    constructor
    · rintro ⟨_, _, ⟨rfl, rfl⟩, h4⟩; omega
    · intro h4; exact ⟨y, b, ⟨rfl, rfl⟩, by omega⟩
  | op o ns ih =>
    intro h x h' k hk hx
    match ns, ih, hk, hx with
    | [], _, hk, _ => simp [rangeKind] at hk
    | [y], ih, hk, hx =>
      obtain ⟨rfl, ky, hky, hk⟩ := rangeKind_one hk
      rw [walkActive] at hx
      simp only [true_or, if_true, bind_ok] at hx
      obtain ⟨⟨b, h1⟩, hb, hx⟩ := hx
      obtain ⟨a, rfl, d, g1, g2⟩ := ih y (by simp) h b h1 ky hky hb
      obtain ⟨c, rfl, d', g3, g4⟩ := activeNot_denotes d hk hx
      rw [← g4] at d' g1 g3
      refine ⟨c, rfl, (d'.names (by simp [DF.terms, DF.termsList])).imp ?_, g1, fun q hq => by rw [g3 q (.inl hq), g2 q hq]⟩
      intro ρ hρ
      obtain ⟨v, hv, _⟩ := rangeKind_value hρ y ky hky
      rw [holds_not]
      simp only [Holds, hv, Option.some.injEq, exists_eq_left', not_not]
    | [l, r], ih, hk, hx =>
      have ht : (DF.op o [l, r]).terms = l.terms ++ r.terms := by simp [DF.terms, DF.termsList]
      rcases rangeKind_two hk with ⟨ho, rfl, a, b, ha, hb⟩ | ⟨ho, a, b, ha, hb, hc⟩ | ⟨ho1, ho2, hcs⟩
      · rw [walkActive, if_pos (by tauto)] at hx
        simp only [bind_ok] at hx
        obtain ⟨⟨xa, h1⟩, e1, ⟨xb, h2⟩, e2, hx⟩ := hx
        obtain ⟨ca, rfl, d1, g1, g2⟩ := ih l (by simp) h xa h1 a ha e1
        obtain ⟨cb, rfl, d2, g3, g4⟩ := ih r (by simp) h1 xb h2 b hb e2
        simp only [orSkip, bind_ok, ok_inj, Prod.mk.injEq] at hx
        obtain ⟨y, hy, rfl, rfl⟩ := hx
        obtain ⟨c, rfl, d⟩ := activeOr_denotes g1 g3 (d1.frame (fun q _ hq => g4 q hq)) d2 hy
        refine ⟨c, rfl, (d.names ht.symm).imp ?_, by omega, fun q hq => by rw [g4 q (Nat.lt_of_lt_of_le hq g1), g2 q hq]⟩
        intro ρ hρ
        obtain ⟨v, hv, _⟩ := rangeKind_value hρ l a ha
        obtain ⟨w, hw, _⟩ := rangeKind_value hρ r b hb
        exact (holds_or ho.symm ⟨v, hv⟩ ⟨w, hw⟩).symm
      · rw [walkActive, if_neg (by rcases ho with rfl | ⟨rfl, _⟩ <;> simp), if_pos (by tauto)] at hx
        simp only [bind_ok] at hx
        obtain ⟨⟨xa, h1⟩, e1, ⟨xb, h2⟩, e2, hx⟩ := hx
        obtain ⟨ca, rfl, d1, g1, g2⟩ := ih l (by simp) h xa h1 a ha e1
        obtain ⟨cb, rfl, d2, g3, g4⟩ := ih r (by simp) h1 xb h2 b hb e2
        simp only [andSkip] at hx
        obtain ⟨c, rfl, d, g5, g6⟩ := activeAnd_denotes g1 g3 (d1.frame (fun q _ hq => g4 q hq)) d2 hc hx
        refine ⟨c, rfl, ((g6 ▸ d).names ht.symm).imp ?_, by omega, fun q hq => by rw [g5 q (.inl hq), g4 q (Nat.lt_of_lt_of_le hq g1), g2 q hq]⟩
        intro ρ hρ
        obtain ⟨v, hv, hv'⟩ := rangeKind_value hρ l a ha
        obtain ⟨w, hw, hw'⟩ := rangeKind_value hρ r b hb
        rcases ho with rfl | ⟨rfl, b1, b2⟩
        · exact holds_land.symm
        · simp only [Holds, sem, semList, hv, hw, Option.bind_eq_bind, Option.bind_some, List.map, opSem, Option.some.injEq, exists_eq_left']
          rw [pyAnd_bool (hv' b1) (hw' b2), b2i_ne0]
          simp
      · rw [walkActive, if_neg ho1, if_neg ho2, walkCmp.eq_def] at hx
        rcases hcs with ⟨n, c, w, f, s, rfl, rfl, hat⟩ | ⟨n, c, w, f, s, o', rfl, rfl, ho, hat⟩ | ⟨c, w, f, s, a, rfl, ⟨u, ns, rfl⟩, hb, ha, hek⟩ |
          ⟨c, w, f, s, a, rfl, ⟨u, ns, rfl⟩, hb, ha, hek⟩
        · simp only at hx
          obtain ⟨a, rfl, d, h1, h2⟩ := rangeTerm_denotes hat hx
          refine ⟨a, rfl, (d.names (by simp [DF.terms, DF.termsList])).imp ?_, h1, h2⟩
          intro ρ hρ
          obtain ⟨w', hw, hp⟩ := atomKind_ok hat
          obtain ⟨y, b, hy, h3, _⟩ := hρ n w' hw
          rw [holds_b2i (atom_left hp hy w f s)]
          simp [hy]
        · simp only at hx
          have hsw : o.swapped = o' := by cases o <;> simp [mirrored] at ho <;> subst ho <;> rfl
          rw [hsw] at hx
          obtain ⟨a, rfl, d, h1, h2⟩ := rangeTerm_denotes hat hx
          refine ⟨a, rfl, (d.names (by simp [DF.terms, DF.termsList])).imp ?_, h1, h2⟩
          intro ρ hρ
          obtain ⟨w', hw, hp⟩ := atomKind_ok hat
          obtain ⟨y, b, hy, h3, _⟩ := hρ n w' hw
          rw [holds_b2i (atom_right ho hp hy w f s)]
          simp [hy]
        · simp only at hx
          have ih := ih _ (List.mem_cons_self ..)
          generalize hl : DF.op u ns = l at *
          have side : ∀ (yes : Int → Bool) (b : AC) (h1 : AHeap), RangeDenotes width l.terms (fun ρ => Holds ρ l) h.length h1.length h1 b a → h.length ≤ h1.length →
              (∀ q, q < h.length → h1[q]? = h[q]?) → (yes c = decide ((o = .eq ∧ c = 1) ∨ (o = .notEq ∧ c = 0))) → sideOf h1 b (.int c) yes = .ok (x, h') →
              ∃ b, x = some b ∧ RangeDenotes width (DF.op o [l, .ev (.int c) w f s]).terms (fun ρ => Holds ρ (.op o [l, .ev (.int c) w f s])) h.length h'.length h' b k ∧
                h.length ≤ h'.length ∧ ∀ q, q < h.length → h'[q]? = h[q]? := by
            intro yes b h1 d g1 g2 hyes hs
            simp only [sideOf, hyes] at hs
            rcases eqKind_cases hek with ⟨e, rfl⟩ | ⟨e, hn⟩
            · rw [if_pos (by simpa using e)] at hs
              simp only [ok_inj, Prod.mk.injEq] at hs
              obtain ⟨rfl, rfl⟩ := hs
              refine ⟨b, rfl, (d.names (by simp [DF.terms, DF.termsList])).imp ?_, g1, g2⟩
              intro ρ hρ
              obtain ⟨v, hv, hv'⟩ := rangeKind_value hρ l _ ha
              rw [holds_b2i ((eq_left hv (hv' hb) w f s).1 e).1]
              simp [Holds, hv]
            · rw [if_neg (by simp only [decide_eq_true_eq]; rcases e with ⟨rfl, rfl⟩ | ⟨rfl, rfl⟩ <;> simp)] at hs
              obtain ⟨y, rfl, d', g3, g4⟩ := activeNot_denotes d hn hs
              refine ⟨y, rfl, ((g4 ▸ d').names (by simp [DF.terms, DF.termsList])).imp ?_, by omega, fun q hq => by rw [g3 q (.inl hq), g2 q hq]⟩
              intro ρ hρ
              obtain ⟨v, hv, hv'⟩ := rangeKind_value hρ l _ ha
              rw [holds_b2i ((eq_left hv (hv' hb) w f s).2 e).1]
              simp [Holds, hv]
          have h01 : (o = .eq ∨ o = .notEq) ∧ (c = 0 ∨ c = 1) := by
            rcases eqKind_cases hek with ⟨e, _⟩ | ⟨e, _⟩ <;> tauto
          rcases h01 with ⟨rfl | rfl, hc⟩
          · rw [if_pos rfl] at hx
            simp only [bind_ok] at hx
            obtain ⟨⟨xa, h1⟩, e1, ⟨xb, h2⟩, e2, hx⟩ := hx
            obtain ⟨b, rfl, d, g1, g2⟩ := ih h xa h1 a ha e1
            simp only [walkActive, ok_inj, Prod.mk.injEq] at e2
            obtain ⟨rfl, rfl⟩ := e2
            simp only [activeEq] at hx
            exact side _ b h1 d g1 g2 (by rcases hc with rfl | rfl <;> rfl) hx
          · rw [if_neg (by simp), if_pos rfl] at hx
            simp only [bind_ok] at hx
            obtain ⟨⟨xa, h1⟩, e1, ⟨xb, h2⟩, e2, hx⟩ := hx
            obtain ⟨b, rfl, d, g1, g2⟩ := ih h xa h1 a ha e1
            simp only [walkActive, ok_inj, Prod.mk.injEq] at e2
            obtain ⟨rfl, rfl⟩ := e2
            simp only [activeNe] at hx
            exact side _ b h1 d g1 g2 (by rcases hc with rfl | rfl <;> rfl) hx
        · simp only at hx
          have ih := ih (.op u ns) (by simp)
          generalize hl : DF.op u ns = l at *
          have side : ∀ (yes : Int → Bool) (b : AC) (h1 : AHeap), RangeDenotes width l.terms (fun ρ => Holds ρ l) h.length h1.length h1 b a → h.length ≤ h1.length →
              (∀ q, q < h.length → h1[q]? = h[q]?) → (yes c = decide ((o = .eq ∧ c = 1) ∨ (o = .notEq ∧ c = 0))) → sideOf h1 b (.int c) yes = .ok (x, h') →
              ∃ b, x = some b ∧ RangeDenotes width (DF.op o [.ev (.int c) w f s, l]).terms (fun ρ => Holds ρ (.op o [.ev (.int c) w f s, l])) h.length h'.length h' b k ∧
                h.length ≤ h'.length ∧ ∀ q, q < h.length → h'[q]? = h[q]? := by
            intro yes b h1 d g1 g2 hyes hs
            simp only [sideOf, hyes] at hs
            rcases eqKind_cases hek with ⟨e, rfl⟩ | ⟨e, hn⟩
            · rw [if_pos (by simpa using e)] at hs
              simp only [ok_inj, Prod.mk.injEq] at hs
              obtain ⟨rfl, rfl⟩ := hs
              refine ⟨b, rfl, (d.names (by simp [DF.terms, DF.termsList])).imp ?_, g1, g2⟩
              intro ρ hρ
              obtain ⟨v, hv, hv'⟩ := rangeKind_value hρ l _ ha
              rw [holds_b2i ((eq_left hv (hv' hb) w f s).1 e).2]
              simp [Holds, hv]
            · rw [if_neg (by simp only [decide_eq_true_eq]; rcases e with ⟨rfl, rfl⟩ | ⟨rfl, rfl⟩ <;> simp)] at hs
              obtain ⟨y, rfl, d', g3, g4⟩ := activeNot_denotes d hn hs
              refine ⟨y, rfl, ((g4 ▸ d').names (by simp [DF.terms, DF.termsList])).imp ?_, by omega, fun q hq => by rw [g3 q (.inl hq), g2 q hq]⟩
              intro ρ hρ
              obtain ⟨v, hv, hv'⟩ := rangeKind_value hρ l _ ha
              rw [holds_b2i ((eq_left hv (hv' hb) w f s).2 e).2]
              simp [Holds, hv]
          have h01 : (o = .eq ∨ o = .notEq) ∧ (c = 0 ∨ c = 1) := by
            rcases eqKind_cases hek with ⟨e, _⟩ | ⟨e, _⟩ <;> tauto
          rcases h01 with ⟨rfl | rfl, hc⟩
          · rw [if_pos rfl] at hx
            simp only [bind_ok] at hx
            obtain ⟨⟨xa, h1⟩, e1, ⟨xb, h2⟩, e2, hx⟩ := hx
            simp only [walkActive, ok_inj, Prod.mk.injEq] at e1
            obtain ⟨rfl, rfl⟩ := e1
            obtain ⟨b, rfl, d, g1, g2⟩ := ih h xb h2 a ha e2
            simp only [activeEq] at hx
            exact side _ b h2 d g1 g2 (by rcases hc with rfl | rfl <;> rfl) hx
          · rw [if_neg (by simp), if_pos rfl] at hx
            simp only [bind_ok] at hx
            obtain ⟨⟨xa, h1⟩, e1, ⟨xb, h2⟩, e2, hx⟩ := hx
            simp only [walkActive, ok_inj, Prod.mk.injEq] at e1
            obtain ⟨rfl, rfl⟩ := e1
            obtain ⟨b, rfl, d, g1, g2⟩ := ih h xb h2 a ha e2
            simp only [activeNe] at hx
            exact side _ b h2 d g1 g2 (by rcases hc with rfl | rfl <;> rfl) hx
    | _ :: _ :: _ :: _, _, hk, _ => simp [rangeKind] at hk
  | _ => intro h x h' k hk; simp [rangeKind] at hk

end Pyv
