import Verif.Props.ARangeSpec
import Verif.Props.FsmReset
/-
  C92, C93: active conditions.
-/
namespace Pyv

/-! ### Terms -/

theorem lowers_ok : ∀ {rs : List ARange} {ps : List (Int × Option Int)}, lowers rs = .ok ps → rs = ps.map (fun p => (some p.1, p.2)) := by
  intro rs
  induction rs with
  | nil => intro ps h; simp only [lowers, ok_inj] at h; subst h; rfl
  | cons a rs ih =>
    intro ps h
    obtain ⟨lo, hi⟩ := a
    cases lo with
    | none => simp [lowers] at h
    | some lo =>
      simp only [lowers, bind_ok, ok_inj] at h
      obtain ⟨r, hr, rfl⟩ := h
      rw [ih hr]; rfl

theorem closed_ok : ∀ {rs : List ARange} {ps : List (Int × Int)}, closed rs = .ok ps → rs = ps.map (fun p => (some p.1, some p.2)) := by
  intro rs
  induction rs with
  | nil => intro ps h; simp only [closed, ok_inj] at h; subst h; rfl
  | cons a rs ih =>
    intro ps h
    obtain ⟨lo, hi⟩ := a
    cases lo with
    | none => simp [closed] at h
    | some lo =>
      cases hi with
      | none => simp [closed] at h
      | some hi =>
        simp only [closed, bind_ok, ok_inj] at h
        obtain ⟨r, hr, rfl⟩ := h
        rw [ih hr]; rfl

/-- Pairs of two bounds. -/
theorem has_pairs {ps : List (Int × Int)} {x : Int} :
    (∃ p ∈ ps.map (fun p => ((some p.1, some p.2) : ARange)), ARange.Has p x) ↔ InRanges x ps := by
  simp [ARange.Has, InRanges]

theorem opNot_spec {t t' : ATerm} (h : t.opNot = .ok t') (hne : t.ranges ≠ []) :
    t'.name = t.name ∧ t'.minv = t.minv ∧ t'.maxv = t.maxv ∧ ∀ x, t.minv ≤ x → x ≤ t.maxv → (t'.Has x ↔ ¬ t.Has x) := by
  simp only [ATerm.opNot, if_pos (List.length_pos_iff.mpr hne), bind_ok, ok_inj] at h
  obtain ⟨ps, hps, rfl⟩ := h
  refine ⟨rfl, rfl, rfl, ?_⟩
  intro x h1 h2
  have hc := C20_complement { ranges := ps.map (fun p => (p.1, p.2.getD t.maxv)), minv := t.minv, maxv := t.maxv } x h1 h2
  simp only [ATerm.Has, has_pairs]
  rw [show (if (notRangeLoop t.minv (sortPairs (ps.map (fun p => (p.1, p.2.getD t.maxv))))).2 ≤ t.maxv then
      (notRangeLoop t.minv (sortPairs (ps.map (fun p => (p.1, p.2.getD t.maxv))))).1 ++
        [((notRangeLoop t.minv (sortPairs (ps.map (fun p => (p.1, p.2.getD t.maxv))))).2, t.maxv)]
      else (notRangeLoop t.minv (sortPairs (ps.map (fun p => (p.1, p.2.getD t.maxv))))).1) =
      notRangePairs { ranges := ps.map (fun p => (p.1, p.2.getD t.maxv)), minv := t.minv, maxv := t.maxv } from rfl, hc]
  refine not_congr ?_
  rw [lowers_ok hps]
  simp only [InRanges, List.mem_map, ARange.Has]
  constructor
  · rintro ⟨_, ⟨p, hp, rfl⟩, h3, h4⟩
    refine ⟨_, ⟨p, hp, rfl⟩, ⟨p.1, rfl, h3⟩, ?_⟩
    intro hi e
    simp only at e h4
    rw [e] at h4
    exact h4
  · rintro ⟨_, ⟨p, hp, rfl⟩, ⟨lo, e, h3⟩, h4⟩
    simp only [Option.some.injEq] at e h4
    subst e
    refine ⟨_, ⟨p, hp, rfl⟩, h3, ?_⟩
    simp only
    cases hh : p.2 with
    | none => exact h2
    | some hi => exact h4 hi hh

theorem andARanges_spec {a b r : List ARange} (h : andARanges a b = .ok r) (x : Int) :
    (∃ p ∈ r, ARange.Has p x) ↔ (∃ p ∈ a, ARange.Has p x) ∧ (∃ p ∈ b, ARange.Has p x) := by
  simp only [andARanges] at h
  split at h
  · rename_i hl
    simp only [ok_inj] at h
    subst h
    rcases hl with hl | hl
    · rw [List.length_eq_zero_iff] at hl; subst hl; simp
    · rw [List.length_eq_zero_iff] at hl; subst hl; simp
  · simp only [bind_ok, ok_inj] at h
    obtain ⟨a', ha, b', hb, rfl⟩ := h
    rw [has_pairs, closed_ok ha, closed_ok hb, has_pairs, has_pairs, andRangePairs_spec]

/-! ### Conjunctions -/

/-- The terms at the positions `A` may have lost the values that are not in `X`; nothing else has changed. -/
structure Cut (A : Nat → Prop) (X : ScopeChain → Int → Prop) (h h' : AHeap) : Prop where
  len : h'.length = h.length
  at_ : ∀ q t, h[q]? = some t → ∃ t', h'[q]? = some t' ∧ t'.name = t.name ∧ t'.minv = t.minv ∧ t'.maxv = t.maxv ∧
    (t' = t ∨ (A q ∧ ∀ x, t'.Has x ↔ t.Has x ∧ X t.name x))

theorem Cut.refl {A X h} : Cut A X h h := ⟨rfl, fun _ t ht => ⟨t, ht, rfl, rfl, rfl, .inl rfl⟩⟩

theorem Cut.trans {A X h h' h''} (a : Cut A X h h') (b : Cut A X h' h'') : Cut A X h h'' := by
  refine ⟨b.len.trans a.len, ?_⟩
  intro q t ht
  obtain ⟨t', h1, n1, m1, x1, e1⟩ := a.at_ q t ht
  obtain ⟨t'', h2, n2, m2, x2, e2⟩ := b.at_ q t' h1
  refine ⟨t'', h2, n2.trans n1, m2.trans m1, x2.trans x1, ?_⟩
  rcases e1 with rfl | ⟨hA, e1⟩
  · exact e2
  · rcases e2 with rfl | ⟨_, e2⟩
    · exact .inr ⟨hA, e1⟩
    · refine .inr ⟨hA, fun x => ?_⟩
      rw [e2, e1, n1]
      tauto

theorem Cut.keep {A X h h'} (a : Cut A X h h') {q t} (hq : ¬ A q) (ht : h[q]? = some t) : h'[q]? = some t := by
  obtain ⟨t', h1, _, _, _, e | e⟩ := a.at_ q t ht
  · rw [h1, e]
  · exact absurd e.1 hq

/-- The entry of a condition and the terms after it. -/
def Sharp (X : ScopeChain → Int → Prop) (h h' : AHeap) (q : Nat) : Prop :=
  ∀ t t', h[q]? = some t → h'[q]? = some t' → ∀ x, t'.Has x ↔ t.Has x ∧ X t.name x

theorem Sharp.step {A X h h' h'' q} (s : Sharp X h h' q) (hh : Cut A X h h') (a : Cut A X h' h'') : Sharp X h h'' q := by
  intro t t'' ht ht'' x
  obtain ⟨t', h1, n1, _, _, _⟩ := hh.at_ q t ht
  obtain ⟨t2, h2, n2, _, _, e⟩ := a.at_ q t' h1
  rw [h2] at ht''
  cases ht''
  rcases e with rfl | ⟨_, e⟩
  · exact s t _ ht h1 x
  · rw [e, s t t' ht h1 x, n1]
    tauto

theorem dict_get_append {κ α : Type} [DecidableEq κ] (d e : Dict κ α) (k : κ) : Dict.get? (d ++ e : List (κ × α)) k = (d.get? k).or (e.get? k) := by
  simp only [Dict.get?, List.find?_append]
  cases List.find? (fun p => decide (p.1 = k)) d <;> simp

theorem merge_spec {A : Nat → Prop} {X : ScopeChain → Int → Prop} : ∀ (es : List (ScopeChain × Nat)) (c : ACond) (h : AHeap) (c' : ACond) (h' : AHeap),
    (es.map (·.1)).Nodup → c.Nodup → (∀ p ∈ es, ¬ A p.2 ∧ ∃ t, h[p.2]? = some t ∧ ∀ x, X p.1 x ↔ t.Has x) →
    (∀ n ∈ es.map (·.1), ∀ q, c.get? n = some q → A q ∧ ∃ t, h[q]? = some t ∧ t.name = n) →
    ACond.merge c h es = .ok (c', h') →
    Cut A X h h' ∧ c'.Nodup ∧ (∀ n, c'.get? n = (c.get? n).or (Dict.get? es n)) ∧
    ∀ n ∈ es.map (·.1), ∀ q, c.get? n = some q → Sharp X h h' q := by
  intro es
  induction es with
  | nil =>
    intro c h c' h' _ hc _ _ he
    simp only [ACond.merge, ok_inj, Prod.mk.injEq] at he
    obtain ⟨rfl, rfl⟩ := he
    exact ⟨.refl, hc, fun n => by simp [Dict.get?_nil], by simp⟩
  | cons e es ih =>
    intro c h c' h' hn hc hX hA he
    obtain ⟨n, r⟩ := e
    simp only [ACond.merge, bind_ok] at he
    obtain ⟨⟨c1, h1⟩, he1, he⟩ := he
    simp only at he
    simp only [List.map_cons, List.nodup_cons] at hn
    obtain ⟨hAr, tr, htr, hXr⟩ := hX (n, r) (by simp)
    simp only [ACond.put] at he1
    cases hg : c.get? n with
    | none =>
      rw [hg] at he1
      simp only [ok_inj, Prod.mk.injEq] at he1
      obtain ⟨rfl, rfl⟩ := he1
      have hc1 : (c.set n r).Nodup := Dict.nodup_set hc n r
      obtain ⟨i1, i2, i3, i4⟩ := ih _ _ c' h' hn.2 hc1 (fun p hp => hX p (by simp [hp])) (by
        intro m hm q hq
        rw [Dict.get?_set, if_neg (by rintro rfl; exact hn.1 hm)] at hq
        exact hA m (by simp only [List.map_cons, List.mem_cons]; exact .inr hm) q hq) he
      refine ⟨i1, i2, ?_, ?_⟩
      · intro m
        rw [i3, Dict.get?_set, Dict.get?_cons]
        by_cases hm : n = m
        · subst hm; simp [hg]
        · simp [hm]
      · intro m hm q hq
        simp only [List.map_cons, List.mem_cons] at hm
        rcases hm with rfl | hm
        · rw [hg] at hq; cases hq
        · refine i4 m hm q ?_
          rw [Dict.get?_set, if_neg (by rintro rfl; exact hn.1 hm)]; exact hq
    | some q =>
      rw [hg] at he1
      obtain ⟨hAq, tq, htq, hname⟩ := hA n (by simp) q hg
      simp only [htq, htr, bind_ok, ok_inj, Prod.mk.injEq] at he1
      obtain ⟨rs, hrs, rfl, rfl⟩ := he1
      have hlt : q < h.length := (List.getElem?_eq_some_iff.mp htq).1
      have cut1 : Cut A X h (h.set q { tq with ranges := rs }) := by
        refine ⟨by simp, ?_⟩
        intro p t ht
        by_cases hp : p = q
        · subst hp
          rw [htq] at ht; cases ht
          refine ⟨{ tq with ranges := rs }, by simp [hlt], rfl, rfl, rfl, .inr ⟨hAq, fun x => ?_⟩⟩
          rw [hname, hXr]
          exact andARanges_spec hrs x
        · exact ⟨t, by rw [List.getElem?_set_ne (Ne.symm hp)]; exact ht, rfl, rfl, rfl, .inl rfl⟩
      obtain ⟨i1, i2, i3, i4⟩ := ih _ _ c' h' hn.2 hc (by
        intro p hp
        obtain ⟨a1, t, a2, a3⟩ := hX p (by simp [hp])
        exact ⟨a1, t, cut1.keep a1 a2, a3⟩) (by
        intro m hm p hp
        obtain ⟨a1, t, a2, a3⟩ := hA m (by simp only [List.map_cons, List.mem_cons]; exact .inr hm) p hp
        obtain ⟨t', b1, b2, _⟩ := cut1.at_ p t a2
        exact ⟨a1, t', b1, b2.trans a3⟩) he
      refine ⟨cut1.trans i1, i2, ?_, ?_⟩
      · intro m
        rw [i3, Dict.get?_cons]
        by_cases hm : n = m
        · subst hm; simp [hg]
        · simp [hm]
      · intro m hm p hp
        simp only [List.map_cons, List.mem_cons] at hm
        rcases hm with rfl | hm
        · rw [hg] at hp; cases hp
          have s1 : Sharp X h (h.set q { tq with ranges := rs }) q := by
            intro t t' ht ht' x
            rw [htq] at ht; cases ht
            simp only [List.getElem?_set_self hlt, Option.some.injEq] at ht'
            subst ht'
            rw [hname, hXr]
            exact andARanges_spec hrs x
          exact s1.step cut1 i1
        · intro t t' ht ht' x
          obtain ⟨t1, b1, b2, _, _, b5⟩ := cut1.at_ p t ht
          rw [i4 m hm p hp t1 t' b1 ht' x, b2]
          rcases b5 with rfl | ⟨_, b5⟩
          · rfl
          · rw [b5]; tauto

/-- What a loop over conditions makes of one of them. -/
def MergedOf (X : ScopeChain → Int → Prop) (es : ACond) (h h' : AHeap) (c c' : ACond) : Prop :=
  c'.Nodup ∧ (∀ n, c'.get? n = (c.get? n).or (Dict.get? es n)) ∧ ∀ n ∈ es.map (·.1), ∀ q, c.get? n = some q → Sharp X h h' q

theorem mergeEach_spec {A : Nat → Prop} {X : ScopeChain → Int → Prop} {es : ACond} (hn : es.Nodup) : ∀ (cs : List ACond) (h : AHeap) (cs' : List ACond)
    (h' : AHeap), (∀ c ∈ cs, c.Nodup) → (∀ p ∈ es, ¬ A p.2 ∧ ∃ t, h[p.2]? = some t ∧ ∀ x, X p.1 x ↔ t.Has x) →
    (∀ c ∈ cs, ∀ n ∈ es.map (·.1), ∀ q, c.get? n = some q → A q ∧ ∃ t, h[q]? = some t ∧ t.name = n) →
    mergeEach h es cs = .ok (cs', h') →
    Cut A X h h' ∧ List.Forall₂ (MergedOf X es h h') cs cs' := by
  intro cs
  induction cs with
  | nil =>
    intro h cs' h' _ _ _ he
    simp only [mergeEach, ok_inj, Prod.mk.injEq] at he
    obtain ⟨rfl, rfl⟩ := he
    exact ⟨.refl, .nil⟩
  | cons c cs ih =>
    intro h cs' h' hc hX hA he
    simp only [mergeEach, bind_ok, ok_inj, Prod.mk.injEq] at he
    obtain ⟨⟨c1, h1⟩, he1, ⟨cs2, h2⟩, he2, rfl, rfl⟩ := he
    obtain ⟨m1, m2, m3, m4⟩ := merge_spec es c h c1 h1 hn (hc c (by simp)) hX (hA c (by simp)) he1
    obtain ⟨i1, i2⟩ := ih h1 cs2 h2 (fun d hd => hc d (by simp [hd])) (by
      intro p hp
      obtain ⟨a1, t, a2, a3⟩ := hX p hp
      exact ⟨a1, t, m1.keep a1 a2, a3⟩) (by
      intro d hd m hm p hp
      obtain ⟨a1, t, a2, a3⟩ := hA d (by simp [hd]) m hm p hp
      obtain ⟨t', b1, b2, _⟩ := m1.at_ p t a2
      exact ⟨a1, t', b1, b2.trans a3⟩) he2
    refine ⟨m1.trans i1, .cons ⟨m2, m3, fun n hn q hq => (m4 n hn q hq).step m1 i1⟩ ?_⟩
    refine i2.imp ?_
    rintro d d' ⟨a1, a2, a3⟩
    refine ⟨a1, a2, fun n hn q hq => ?_⟩
    intro t t' ht ht' x
    obtain ⟨t1, b1, b2, _, _, b5⟩ := m1.at_ q t ht
    rw [a3 n hn q hq t1 t' b1 ht' x, b2]
    rcases b5 with rfl | ⟨_, b5⟩
    · rfl
    · rw [b5]; tauto

/-- Conditions read through the dictionary. -/
theorem condIs_get {h : AHeap} {ρ : Env} {c : ACond} (hc : c.Nodup) : CondIs h ρ c ↔ ∀ n r, c.get? n = some r → TermIs h ρ n r := by
  constructor
  · intro hh n r hr
    exact hh (n, r) (Dict.mem_of_get? hr)
  · intro hh p hp
    exact hh p.1 p.2 (Dict.get?_of_mem hc hp)

/-- The terms of a condition: positions between the bounds, the right names and bounds. -/
def TermsAt (width : ScopeChain → Py Nat) (N : List ScopeChain) (lo hi : Nat) (h : AHeap) (c : ACond) : Prop :=
  c.Nodup ∧ ∀ p ∈ c, lo ≤ p.2 ∧ p.2 < hi ∧ p.1 ∈ N ∧ ∃ t, h[p.2]? = some t ∧ t.name = p.1 ∧ t.minv = 0 ∧ ∃ w, width p.1 = .ok w ∧ t.maxv = 2 ^ w - 1

/-- A term that some values satisfy and others do not. -/
def ATerm.Live (t : ATerm) : Prop := (∃ x, 0 ≤ x ∧ x ≤ t.maxv ∧ t.Has x) ∧ ∃ x, 0 ≤ x ∧ x ≤ t.maxv ∧ ¬ t.Has x

theorem mergedOf_is {A X es h h' c c'} {ρ : Env} {width N M lo mi mj hi} (hc : TermsAt width N lo mi h c) (he : TermsAt width M mj hi h es)
    (hX : ∀ p ∈ es, ¬ A p.2 ∧ ∃ t, h[p.2]? = some t ∧ ∀ x, X p.1 x ↔ t.Has x)
    (hX0 : ∀ n, n ∉ es.map (·.1) → ∀ x, X n x) (cut : Cut A X h h') (m : MergedOf X es h h' c c') :
    CondIs h' ρ c' ↔ CondIs h ρ c ∧ CondIs h ρ es := by
  obtain ⟨m1, m2, m3⟩ := m
  rw [condIs_get m1, condIs_get hc.1, condIs_get he.1]
  have keepE : ∀ n r, Dict.get? es n = some r → (TermIs h' ρ n r ↔ TermIs h ρ n r) := by
    intro n r hr
    obtain ⟨a1, t, a2, _⟩ := hX (n, r) (Dict.mem_of_get? hr)
    simp only [TermIs, cut.keep a1 a2, a2]
  have keepC : ∀ n q, c.get? n = some q → (TermIs h' ρ n q ↔ TermIs h ρ n q ∧ ∀ r, Dict.get? es n = some r → TermIs h ρ n r) := by
    intro n q hq
    obtain ⟨_, _, _, t, ht, hname, _⟩ := hc.2 (n, q) (Dict.mem_of_get? hq)
    simp only at ht hname
    obtain ⟨t', ht', _, _, _, e⟩ := cut.at_ q t ht
    cases hr : Dict.get? es n with
    | some r =>
      obtain ⟨a1, u, a2, a3⟩ := hX (n, r) (Dict.mem_of_get? hr)
      have := m3 n (by rw [List.mem_map]; exact ⟨_, Dict.mem_of_get? hr, rfl⟩) q hq t t' ht ht'
      simp only [TermIs, ht, ht', a2, Option.some.injEq, exists_eq_left', forall_eq']
      constructor
      · rintro ⟨x, w, h1, h2⟩
        rw [this, hname, a3] at h2
        exact ⟨⟨x, w, h1, h2.1⟩, x, w, h1, h2.2⟩
      · rintro ⟨⟨x, w, h1, h2⟩, x', w', h3, h4⟩
        rw [h1] at h3
        cases h3
        refine ⟨x, w, h1, ?_⟩
        rw [this, hname, a3]
        exact ⟨h2, h4⟩
    | none =>
      have hxx : ∀ x, X n x := hX0 n (by
        intro hm
        rw [List.mem_map] at hm
        obtain ⟨p, hp, rfl⟩ := hm
        rw [Dict.get?_of_mem he.1 hp] at hr
        cases hr)
      simp only [TermIs, ht, ht', Option.some.injEq, exists_eq_left', reduceCtorEq, false_implies, implies_true, and_true]
      rcases e with rfl | ⟨_, e⟩
      · rfl
      · refine exists_congr fun x => exists_congr fun w => and_congr_right fun _ => ?_
        rw [e, hname]
        exact ⟨fun h => h.1, fun h => ⟨h, hxx x⟩⟩
  constructor
  · intro hh
    refine ⟨?_, ?_⟩
    · intro n q hq
      exact ((keepC n q hq).mp (hh n q (by rw [m2, hq]; rfl))).1
    · intro n r hr
      cases hq : c.get? n with
      | some q => exact ((keepC n q hq).mp (hh n q (by rw [m2, hq]; rfl))).2 r hr
      | none => exact (keepE n r hr).mp (hh n r (by rw [m2, hq]; exact hr))
  · rintro ⟨h1, h2⟩ n r hr
    rw [m2] at hr
    cases hq : c.get? n with
    | some q =>
      rw [hq] at hr; cases hr
      exact (keepC n r hq).mpr ⟨h1 n r hq, fun r hr => h2 n r hr⟩
    | none =>
      rw [hq] at hr
      exact (keepE n r hr).mpr (h2 n r hr)

theorem mergedOf_terms {A X es h h' c c'} {width N M lo mi mj hi l0 h0} (hc : TermsAt width N lo mi h c) (he : TermsAt width M mj hi h es)
    (cut : Cut A X h h') (m : MergedOf X es h h' c c') (b1 : l0 ≤ lo) (b2 : mi ≤ h0) (b3 : l0 ≤ mj) (b4 : hi ≤ h0) :
    TermsAt width (N ++ M) l0 h0 h' c' := by
  obtain ⟨m1, m2, _⟩ := m
  refine ⟨m1, ?_⟩
  intro p hp
  have hg := Dict.get?_of_mem m1 hp
  rw [m2, Option.or_eq_some_iff] at hg
  have main : ∀ lo hi N, TermsAt width N lo hi h c ∨ TermsAt width N lo hi h es → (lo ≤ p.2 ∧ p.2 < hi ∧ p.1 ∈ N ∧ ∃ t, h[p.2]? = some t ∧ t.name = p.1 ∧ t.minv = 0 ∧ ∃ w, width p.1 = .ok w ∧ t.maxv = 2 ^ w - 1) →
      (lo ≤ p.2 ∧ p.2 < hi ∧ p.1 ∈ N ∧ ∃ t, h'[p.2]? = some t ∧ t.name = p.1 ∧ t.minv = 0 ∧ ∃ w, width p.1 = .ok w ∧ t.maxv = 2 ^ w - 1) := by
    rintro lo hi N - ⟨a1, a2, a3, t, a4, a5, a6, w, a7, a8⟩
    obtain ⟨t', c1, c2, c3, c4, _⟩ := cut.at_ _ t a4
    exact ⟨a1, a2, a3, t', c1, c2.trans a5, c3.trans a6, w, a7, c4.trans a8⟩
  rcases hg with hg | ⟨_, hg⟩
  · obtain ⟨a1, a2, a3, a4⟩ := main _ _ _ (.inl hc) (hc.2 p (Dict.mem_of_get? hg))
    exact ⟨by omega, by omega, by simp [a3], a4⟩
  · obtain ⟨a1, a2, a3, a4⟩ := main _ _ _ (.inr he) (he.2 p (Dict.mem_of_get? hg))
    exact ⟨by omega, by omega, by simp [a3], a4⟩

/-- The terms of a condition are live. -/
def CondLive (h : AHeap) (c : ACond) : Prop := ∀ p ∈ c, ∀ t, h[p.2]? = some t → t.Live

theorem mergedOf_live {A X es h h' c c'} {width N M lo mi mj hi} (hc : TermsAt width N lo mi h c) (he : TermsAt width M mj hi h es)
    (hX : ∀ p ∈ es, ¬ A p.2) (hX0 : ∀ n, n ∉ es.map (·.1) → ∀ x, X n x) (hd : ∀ n ∈ N, n ∉ M)
    (cut : Cut A X h h') (m : MergedOf X es h h' c c') (lc : CondLive h c) (le : CondLive h es) : CondLive h' c' := by
  obtain ⟨m1, m2, m3⟩ := m
  intro p hp t' ht'
  have hg := Dict.get?_of_mem m1 hp
  rw [m2, Option.or_eq_some_iff] at hg
  rcases hg with hg | ⟨_, hg⟩
  · obtain ⟨_, _, a3, t, ht, hname, _⟩ := hc.2 p (Dict.mem_of_get? hg)
    obtain ⟨t2, b1, b2, b3, b4, e⟩ := cut.at_ _ t ht
    rw [b1] at ht'; cases ht'
    have hl := lc p (Dict.mem_of_get? hg) t ht
    have hxx : ∀ x, X t.name x := hX0 _ (by
      rw [hname]
      intro hm
      rw [List.mem_map] at hm
      obtain ⟨q, hq, e⟩ := hm
      exact hd _ a3 (e ▸ (he.2 q hq).2.2.1))
    rcases e with rfl | ⟨_, e⟩
    · exact hl
    · obtain ⟨⟨x, h1, h2, h3⟩, y, h4, h5, h6⟩ := hl
      refine ⟨⟨x, h1, by rw [b4]; exact h2, (e x).mpr ⟨h3, hxx x⟩⟩, y, h4, by rw [b4]; exact h5, fun h => h6 ((e y).mp h).1⟩
  · obtain ⟨_, _, _, t, ht, _⟩ := he.2 p (Dict.mem_of_get? hg)
    have := cut.keep (hX p (Dict.mem_of_get? hg)) ht
    rw [this] at ht'; cases ht'
    exact le p (Dict.mem_of_get? hg) t' ht

/-- Without common names nothing is changed. -/
theorem merge_disjoint : ∀ (es : List (ScopeChain × Nat)) (c : ACond) (h : AHeap), (es.map (·.1)).Nodup → (∀ p ∈ es, ∀ q ∈ c, q.1 ≠ p.1) →
    ACond.merge c h es = .ok (c ++ es, h) := by
  intro es
  induction es with
  | nil => intro c h _ _; simp [ACond.merge]
  | cons e es ih =>
    intro c h hn hd
    obtain ⟨n, r⟩ := e
    simp only [List.map_cons, List.nodup_cons] at hn
    have hg : c.get? n = none := by
      cases hh : c.get? n with
      | none => rfl
      | some q => exact absurd rfl (hd (n, r) (by simp) (n, q) (Dict.mem_of_get? hh))
    simp only [ACond.merge, ACond.put, hg, ok_bind]
    rw [Dict.set_new (fun p hp => hd (n, r) (by simp) p hp), ih _ _ hn.2 ?_]
    · simp
    · intro p hp q hq
      rcases List.mem_append.mp hq with hq | hq
      · exact hd p (by simp [hp]) q hq
      · simp only [List.mem_singleton] at hq
        subst hq
        intro e
        exact hn.1 (by rw [List.mem_map]; exact ⟨p, hp, e.symm⟩)

end Pyv
