import Verif.Props.ARangeWalk
import Verif.Props.FsmReset
/-
  C93: the conditions that are reported.
-/
namespace Pyv

/-! ### A conjunction has terms -/

theorem merge_ne : ∀ {es : List (ScopeChain × Nat)} {c : ACond} {h : AHeap} {x : ACond × AHeap}, ACond.merge c h es = .ok x →
    c ≠ [] ∨ es ≠ [] → x.1 ≠ []
  | [], c, h, x, hm, hne => by
    simp only [ACond.merge, ok_inj] at hm
    subst hm
    simpa using hne
  | (n, r) :: es, c, h, x, hm, _ => by
    simp only [ACond.merge, bind_ok] at hm
    obtain ⟨y, hy, hm⟩ := hm
    refine merge_ne hm (.inl ?_)
    simp only [ACond.put] at hy
    cases hg : c.get? n with
    | none =>
      rw [hg] at hy
      simp only [ok_inj] at hy
      subst hy
      intro hh
      have hs := Dict.get?_set (d := c) (k := n) (v := r) (k' := n)
      simp only at hh
      rw [hh] at hs
      simp [Dict.get?] at hs
    | some q =>
      rw [hg] at hy
      simp only at hy
      have hc : c ≠ [] := by rintro rfl; simp [Dict.get?] at hg
      split at hy
      · simp only [bind_ok, ok_inj] at hy
        obtain ⟨rs, _, rfl⟩ := hy
        exact hc
      · cases hy

theorem activeAnd_ne {h h' : AHeap} {a b : Option AC} {d : ACond} (hx : activeAnd h a b = .ok (some (.cond d), h'))
    (hb : ∀ c, b = some (.cond c) → c ≠ []) : d ≠ [] := by
  have hs : ∀ {r : Nat} {c : ACond}, single h r = .ok c → c ≠ [] := by
    intro r c hc
    simp only [single] at hc
    split at hc
    · simp only [ok_inj] at hc; subst hc; simp
    · cases hc
  unfold activeAnd at hx
  split at hx <;> simp only [bind_ok, ok_inj, Prod.mk.injEq, Option.some.injEq, AC.cond.injEq, reduceCtorEq, false_and, and_false, exists_false] at hx
  · obtain ⟨c, hc, es, _, x, hm, rfl, _⟩ := hx
    exact merge_ne hm (.inl (hs hc))
  · obtain ⟨c, hc, x, hm, rfl, _⟩ := hx
    exact merge_ne hm (.inl (hs hc))
  · obtain ⟨es, he, x, hm, rfl, _⟩ := hx
    exact merge_ne hm (.inr (hs he))
  · obtain ⟨x, hm, rfl, _⟩ := hx
    exact merge_ne hm (.inr (hb _ rfl))

theorem activeNot_ne {h h' : AHeap} {a : Option AC} {d : ACond} : activeNot h a ≠ .ok (some (.cond d), h') := by
  intro hx
  unfold activeNot at hx
  split at hx <;> simp [bind_ok] at hx

theorem rangeTerm_ne {width o n node h h'} {d : ACond} : rangeTerm width o n node h ≠ .ok (some (.cond d), h') := by
  intro hx
  simp [rangeTerm, bind_ok] at hx

theorem sideOf_ne {h h' : AHeap} {a : AC} {v yes} {d : ACond} (hx : sideOf h a v yes = .ok (some (.cond d), h')) (ha : ∀ c, a = .cond c → c ≠ []) : d ≠ [] := by
  unfold sideOf at hx
  split at hx
  · split at hx
    · simp only [ok_inj, Prod.mk.injEq, Option.some.injEq] at hx
      exact ha _ hx.1
    · exact absurd hx activeNot_ne
  · cases hx

/-- A conjunction returned by the walk has terms. -/
theorem walkActive_ne {width : ScopeChain → Py Nat} (c : DF) : ∀ (h h' : AHeap) (d : ACond), walkActive width c h = .ok (some (.cond d), h') → d ≠ [] := by
  induction c using DF.ind with
  | term n => intro h h' d hx; rw [walkActive] at hx; exact absurd hx rangeTerm_ne
  | op o ns ih =>
    intro h h' d hx
    match ns, ih, hx with
    | [], _, hx => simp [walkActive] at hx
    | [x], ih, hx =>
      rw [walkActive] at hx
      simp only [bind_ok] at hx
      obtain ⟨a, _, hx⟩ := hx
      split at hx
      · exact absurd hx activeNot_ne
      · simp at hx
    | [l, r], ih, hx =>
      have il := ih l (by simp)
      have ir := ih r (by simp)
      have two : ∀ {a b : Option AC × AHeap} {h1 : AHeap}, walkActive width l h = .ok a → walkActive width r h1 = .ok b →
          (∀ c, a.1 = some (.cond c) → c ≠ []) ∧ ∀ c, b.1 = some (.cond c) → c ≠ [] := by
        intro a b h1 ha hb
        exact ⟨fun c hc => il _ a.2 c (by rw [ha, ← hc]), fun c hc => ir _ b.2 c (by rw [hb, ← hc])⟩
      rw [walkActive] at hx
      split at hx
      · simp only [bind_ok] at hx
        obtain ⟨a, ha, b, hb, hx⟩ := hx
        obtain ⟨na, nb⟩ := two ha hb
        unfold orSkip at hx
        split at hx
        · simp only [ok_inj, Prod.mk.injEq] at hx; exact nb _ hx.1
        · simp only [ok_inj, Prod.mk.injEq] at hx; exact na _ hx.1
        · simp only [bind_ok, ok_inj, Prod.mk.injEq] at hx
          obtain ⟨x, hx, rfl, _⟩ := hx
          unfold activeOr at hx
          split at hx <;> simp [bind_ok] at hx
      · split at hx
        · simp only [bind_ok] at hx
          obtain ⟨a, ha, b, hb, hx⟩ := hx
          obtain ⟨na, nb⟩ := two ha hb
          unfold andSkip at hx
          split at hx
          · simp only [ok_inj, Prod.mk.injEq] at hx; exact nb _ hx.1
          · simp only [ok_inj, Prod.mk.injEq] at hx; exact na _ hx.1
          · exact activeAnd_ne hx nb
        · unfold walkCmp at hx
          split at hx
          · exact absurd hx rangeTerm_ne
          · exact absurd hx rangeTerm_ne
          · split at hx
            · simp only [bind_ok] at hx
              obtain ⟨a, ha, b, hb, hx⟩ := hx
              obtain ⟨na, nb⟩ := two ha hb
              unfold activeEq at hx
              split at hx
              · rename_i a' e1 e2
                split at hx
                · exact sideOf_ne hx (fun c hc => na c (by rw [e1, hc]))
                · exact activeAnd_ne hx (by simp)
              · rename_i b' e1 e2
                split at hx
                · exact sideOf_ne hx (fun c hc => nb c (by rw [e2, hc]))
                · exact activeAnd_ne hx (fun c hc => nb c (by rw [e2, hc]))
              · exact activeAnd_ne hx nb
            · split at hx
              · simp only [bind_ok] at hx
                obtain ⟨a, ha, b, hb, hx⟩ := hx
                obtain ⟨na, nb⟩ := two ha hb
                unfold activeNe at hx
                split at hx
                · rename_i a' e1 e2
                  split at hx
                  · exact sideOf_ne hx (fun c hc => na c (by rw [e1, hc]))
                  · simp at hx
                · rename_i b' e1 e2
                  split at hx
                  · exact sideOf_ne hx (fun c hc => nb c (by rw [e2, hc]))
                  · simp at hx
                · simp at hx
              · simp at hx
    | _ :: _ :: _ :: _, _, hx => simp [walkActive] at hx
  | _ => intro h h' d hx; simp [walkActive] at hx

/-! ### A list of conditions -/

/-- The result stands for the predicate, and if it is a conjunction, it has terms. -/
def RangeDenotesNe (width : ScopeChain → Py Nat) (N : List ScopeChain) (P : Env → Prop) (lo hi : Nat) (h : AHeap) (a : AC) (k : AKind) : Prop :=
  RangeDenotes width N P lo hi h a k ∧ ∀ c, a = .cond c → c ≠ []

theorem walkActive_full {width : ScopeChain → Py Nat} {c : DF} {h : AHeap} {x : Option AC} {h' : AHeap} {k : AKind} (hk : rangeKind width c = some k)
    (hx : walkActive width c h = .ok (x, h')) :
    ∃ a, x = some a ∧ RangeDenotesNe width c.terms (fun ρ => Holds ρ c) h.length h'.length h' a k ∧ h.length ≤ h'.length ∧ ∀ q, q < h.length → h'[q]? = h[q]? := by
  obtain ⟨a, rfl, d, h1, h2⟩ := walkActive_denotes c h x h' k hk hx
  exact ⟨a, rfl, ⟨d, fun c' hc => walkActive_ne c h h' c' (by rw [hx, hc])⟩, h1, h2⟩

/-- The rest of a list. -/
theorem inferActive_denotes {width : ScopeChain → Py Nat} : ∀ (cs : List DF) (N : List ScopeChain) (P : Env → Prop) (lo : Nat) (h : AHeap) (a : AC) (k k' : AKind)
    (x : Option AC) (h' : AHeap), lo ≤ h.length → RangeDenotesNe width N P lo h.length h a k → listKind width N k cs = some k' →
    inferActive width h (some a) cs = .ok (x, h') →
    ∃ a', x = some a' ∧ RangeDenotesNe width (N ++ cs.flatMap DF.terms) (fun ρ => P ρ ∧ AllHold ρ cs) lo h'.length h' a' k' ∧ h.length ≤ h'.length ∧
      ∀ q, q < lo → h'[q]? = h[q]?
  | [], N, P, lo, h, a, k, k', x, h', _, d, hk, hx => by
    simp only [listKind, Option.some.injEq] at hk
    simp only [inferActive, ok_inj, Prod.mk.injEq] at hx
    obtain ⟨rfl, rfl⟩ := hx
    subst hk
    exact ⟨a, rfl, ⟨(d.1.names (by simp)).imp (fun ρ _ => by simp [AllHold]), d.2⟩, Nat.le_refl _, fun _ _ => rfl⟩
  | c :: cs, N, P, lo, h, a, k, k', x, h', hlo, d, hk, hx => by
    simp only [listKind, Option.bind_eq_some_iff] at hk
    obtain ⟨kb, hkb, k1, hk1, hk⟩ := hk
    simp only [inferActive, bind_ok] at hx
    obtain ⟨⟨b, h1⟩, hb, ⟨y, h2⟩, hy, hx⟩ := hx
    obtain ⟨b, rfl, db, g1, g2⟩ := walkActive_full hkb hb
    simp only at hy
    obtain ⟨z, rfl, dz, g3, g4⟩ := activeAnd_denotes hlo g1 (d.1.frame (fun q _ hq => g2 q hq)) db.1 hk1 hy
    have hz : RangeDenotesNe width (N ++ c.terms) (fun ρ => P ρ ∧ Holds ρ c) lo h2.length h2 z k1 := by
      rw [← g4] at dz
      exact ⟨dz, fun c' hc => activeAnd_ne (by rw [hy, hc]) (fun c'' hc => db.2 c'' (by simpa using hc))⟩
    obtain ⟨a', rfl, da, g5, g6⟩ := inferActive_denotes cs (N ++ c.terms) _ lo h2 z k1 k' x h' (by omega) hz hk hx
    refine ⟨a', rfl, ⟨(da.1.names (by simp)).imp (fun ρ _ => by simp [AllHold, and_assoc]), da.2⟩, by omega, ?_⟩
    intro q hq
    rw [g6 q hq, g3 q (.inl hq), g2 q (by omega)]

/-- A list of conditions. -/
theorem inferList_denotes {width : ScopeChain → Py Nat} {cs : List DF} {h h' : AHeap} {x : Option AC} (hk : listsOK width cs = true)
    (hx : inferActive width h none cs = .ok (x, h')) :
    ∃ a k, x = some a ∧ RangeDenotesNe width (cs.flatMap DF.terms) (fun ρ => AllHold ρ cs) h.length h'.length h' a k ∧ h.length ≤ h'.length ∧
      ∀ q, q < h.length → h'[q]? = h[q]? := by
  match cs, hk, hx with
  | c :: cs, hk, hx =>
    simp only [listsOK, Option.isSome_iff_exists, Option.bind_eq_some_iff] at hk
    obtain ⟨k', k, hk, hk'⟩ := hk
    simp only [inferActive, bind_ok] at hx
    obtain ⟨⟨b, h1⟩, hb, ⟨y, h2⟩, hy, hx⟩ := hx
    obtain ⟨b, rfl, db, g1, g2⟩ := walkActive_full hk hb
    simp only [ok_inj, Prod.mk.injEq] at hy
    obtain ⟨rfl, rfl⟩ := hy
    obtain ⟨a', rfl, da, g5, g6⟩ := inferActive_denotes cs c.terms _ h.length h1 b k k' x h' g1 db hk' hx
    refine ⟨a', k', rfl, ⟨(da.1.names (by simp)).imp (fun ρ _ => by simp [AllHold]), da.2⟩, by omega, ?_⟩
    intro q hq
    rw [g6 q hq, g2 q hq]

/-! ### What is reported -/

theorem condIs_resolve {h : AHeap} {ρ : Env} {c : ACond} (hc : CondIs h ρ c) : c.resolve h = c := by
  unfold ACond.resolve
  rw [List.filter_eq_self]
  intro p hp
  obtain ⟨t, ht, x, w, _, q, hq, _⟩ := hc p hp
  rw [ht]
  cases hr : t.ranges with
  | nil => rw [hr] at hq; cases hq
  | cons _ _ => simp [hr]

theorem condLive_resolve {h : AHeap} {c : ACond} (hc : CondLive h c) : c.resolve h = c := by
  unfold ACond.resolve
  rw [List.filter_eq_self]
  intro p hp
  cases ht : h[p.2]? with
  | none => rfl
  | some t =>
    obtain ⟨⟨x, _, _, q, hq, _⟩, _⟩ := hc p hp t ht
    cases hr : t.ranges with
    | nil => rw [hr] at hq; cases hq
    | cons _ _ => simp [hr]

/-- What is reported for a result: nothing is lost; and no more is said, if no signal occurs twice. -/
theorem report_spec {width N P lo hi} {h : AHeap} {a : AC} {k : AKind} {cs : List ACond} (d : RangeDenotesNe width N P lo hi h a k)
    (hr : AC.report h (some a) = .ok cs) :
    (∀ ρ, InWidth ρ width → P ρ → ∃ c ∈ cs, CondIs h ρ c) ∧ (N.Nodup → ∀ ρ, InWidth ρ width → (∃ c ∈ cs, CondIs h ρ c) → P ρ) ∧
    ∀ c ∈ cs, ∀ p ∈ c, lo ≤ p.2 ∧ p.2 < hi := by
  obtain ⟨⟨_, ds, h1, h2, h3, h4⟩, hne⟩ := d
  cases a with
  | term r =>
    simp only [AC.report, bind_ok, ok_inj] at hr
    obtain ⟨c, hc, rfl⟩ := hr
    simp only [AC.conds, hc, ok_bind, ok_inj] at h1
    subst h1
    exact ⟨fun ρ hρ hp => (h3 ρ hρ).mpr hp, fun _ ρ hρ hp => (h3 ρ hρ).mp hp, fun c hc p hp => ⟨((h2 c hc).2 p hp).1, ((h2 c hc).2 p hp).2.1⟩⟩
  | cond c =>
    simp only [AC.report, ok_inj] at hr
    simp only [AC.conds, ok_inj] at h1
    subst h1
    have hsub : ∀ c' ∈ cs, c' = c.resolve h := by
      intro c' hc'
      rw [← hr] at hc'
      split at hc' <;> simp at hc'
      exact hc'
    refine ⟨fun ρ hρ hp => ?_, fun hn ρ hρ hp => ?_, fun c' hc' p hp => ?_⟩
    · obtain ⟨c', hc', hh⟩ := (h3 ρ hρ).mpr hp
      simp only [List.mem_singleton] at hc'
      subst hc'
      rw [condIs_resolve hh, if_pos (List.length_pos_of_ne_nil (hne _ rfl))] at hr
      subst hr
      exact ⟨c', by simp, hh⟩
    · obtain ⟨c', hc', hh⟩ := hp
      have := hsub c' hc'
      rw [condLive_resolve (h4 hn c (by simp))] at this
      subst this
      exact (h3 ρ hρ).mp ⟨c', by simp, hh⟩
    · have := hsub c' hc'
      subst this
      have hp' := (List.mem_filter.mp hp).1
      exact ⟨((h2 c (by simp)).2 p hp').1, ((h2 c (by simp)).2 p hp').2.1⟩
  | list ls =>
    simp only [AC.report, ok_inj] at hr
    simp only [AC.conds, ok_inj] at h1
    subst h1 hr
    refine ⟨fun ρ hρ hp => ?_, fun hn ρ hρ hp => ?_, fun c' hc' p hp => ?_⟩
    · obtain ⟨c, hc, hh⟩ := (h3 ρ hρ).mpr hp
      exact ⟨c, List.mem_map.mpr ⟨c, hc, condIs_resolve hh⟩, hh⟩
    · obtain ⟨c', hc', hh⟩ := hp
      obtain ⟨c, hc, rfl⟩ := List.mem_map.mp hc'
      rw [condLive_resolve (h4 hn c hc)] at hh
      exact (h3 ρ hρ).mp ⟨c, hc, hh⟩
    · obtain ⟨c, hc, rfl⟩ := List.mem_map.mp hc'
      have hp' := (List.mem_filter.mp hp).1
      exact ⟨((h2 c hc).2 p hp').1, ((h2 c hc).2 p hp').2.1⟩

/-- All condition lists. -/
theorem inferConds_spec {width : ScopeChain → Py Nat} : ∀ (ls : List (List DF)) (h : AHeap) (cs : List ACond) (h' : AHeap),
    (∀ l ∈ ls, l = [] ∨ listsOK width l = true) → inferConds width h ls = .ok (cs, h') →
    (∀ ρ, InWidth ρ width → (∃ l ∈ ls, l ≠ [] ∧ AllHold ρ l) → ∃ c ∈ cs, CondIs h' ρ c) ∧
    ((∀ l ∈ ls, (l.flatMap DF.terms).Nodup) → ∀ ρ, InWidth ρ width → (∃ c ∈ cs, CondIs h' ρ c) → ∃ l ∈ ls, l ≠ [] ∧ AllHold ρ l) ∧
    h.length ≤ h'.length ∧ ∀ q, q < h.length → h'[q]? = h[q]?
  | [], h, cs, h', _, hx => by
    simp only [inferConds, ok_inj, Prod.mk.injEq] at hx
    obtain ⟨rfl, rfl⟩ := hx
    simp
  | l :: ls, h, cs, h', hok, hx => by
    simp only [inferConds, bind_ok] at hx
    obtain ⟨⟨a, h1⟩, ha, rs, hr, ⟨cs2, h2⟩, hx2, hx⟩ := hx
    simp only [ok_inj, Prod.mk.injEq] at hx
    obtain ⟨rfl, rfl⟩ := hx
    obtain ⟨i1, i2, i3, i4⟩ := inferConds_spec ls h1 cs2 h2 (fun l hl => hok l (List.mem_cons_of_mem _ hl)) hx2
    simp only at hr
    rcases hok l (by simp) with rfl | hl
    · simp only [inferActive, ok_inj, Prod.mk.injEq] at ha
      obtain ⟨rfl, rfl⟩ := ha
      simp only [AC.report, ok_inj] at hr
      subst hr
      refine ⟨?_, ?_, i3, i4⟩
      · rintro ρ hρ ⟨l, hl, hne, hh⟩
        rcases List.mem_cons.mp hl with rfl | hl
        · exact absurd rfl hne
        · simpa using i1 ρ hρ ⟨l, hl, hne, hh⟩
      · rintro hn ρ hρ hc
        obtain ⟨l, hl, hh⟩ := i2 (fun l hl => hn l (List.mem_cons_of_mem _ hl)) ρ hρ (by simpa using hc)
        exact ⟨l, List.mem_cons_of_mem _ hl, hh⟩
    · obtain ⟨a, k, rfl, d, g1, g2⟩ := inferList_denotes hl ha
      obtain ⟨r1, r2, r3⟩ := report_spec d hr
      have hlne : l ≠ [] := by rintro rfl; simp [listsOK] at hl
      have fr : ∀ c ∈ rs, ∀ ρ, CondIs h2 ρ c ↔ CondIs h1 ρ c := by
        intro c hc ρ
        refine forall_congr' fun p => forall_congr' fun hp => ?_
        simp only [TermIs, i4 _ (r3 c hc p hp).2]
      refine ⟨?_, ?_, by omega, fun q hq => by rw [i4 q (by omega), g2 q hq]⟩
      · rintro ρ hρ ⟨l', hl', hne, hh⟩
        rcases List.mem_cons.mp hl' with rfl | hl'
        · obtain ⟨c, hc, hh⟩ := r1 ρ hρ hh
          exact ⟨c, List.mem_append_left _ hc, (fr c hc ρ).mpr hh⟩
        · obtain ⟨c, hc, hh⟩ := i1 ρ hρ ⟨l', hl', hne, hh⟩
          exact ⟨c, List.mem_append_right _ hc, hh⟩
      · rintro hn ρ hρ ⟨c, hc, hh⟩
        rcases List.mem_append.mp hc with hc | hc
        · exact ⟨l, by simp, hlne, r2 (hn l (by simp)) ρ hρ ⟨c, hc, (fr c hc ρ).mp hh⟩⟩
        · obtain ⟨l', hl', hh⟩ := i2 (fun l hl => hn l (List.mem_cons_of_mem _ hl)) ρ hρ ⟨c, hc, hh⟩
          exact ⟨l', List.mem_cons_of_mem _ hl', hh⟩

theorem rangeKeys_mem {isReset : DF → Bool} {pick : DF → Py Bool} : ∀ {fd : FuncDict} {ks : List (List DF)}, rangeKeys isReset pick fd = .ok ks →
    ∀ k, k ∈ ks ↔ ∃ e ∈ fd, pick e.2 = .ok true ∧ k = removeResetCondlist isReset e.1
  | [], ks, h, k => by
    simp only [rangeKeys, ok_inj] at h
    subst h
    simp
  | (c, f) :: fd, ks, h, k => by
    simp only [rangeKeys, bind_ok, ok_inj] at h
    obtain ⟨b, hb, ks', hks, rfl⟩ := h
    have ih := rangeKeys_mem hks k
    cases b
    · simp [ih, hb]
    · simp [ih, hb]

/-! ### With the assigned functions -/

theorem entries_report {h : AHeap} {a : Option AC} {cs : List ACond} (hr : AC.entries h a = .ok cs) :
    ∃ cs', AC.report h a = .ok cs' ∧ (∀ c ∈ cs, c ∈ cs') ∧ ∀ ρ, ∀ c ∈ cs', CondIs h ρ c → c ∈ cs := by
  unfold AC.entries at hr
  split at hr
  · rename_i r
    split at hr
    · rename_i t ht
      simp only [ok_inj] at hr
      refine ⟨[[(t.name, r)]], by simp [AC.report, single, ht, ok_bind], ?_, ?_⟩
      · intro c hc
        subst hr
        split at hc <;> simp_all
      · intro ρ c hc hh
        simp only [List.mem_singleton] at hc
        subst hc
        obtain ⟨t', ht', x, w, _, q, hq, _⟩ := hh (t.name, r) (by simp)
        simp only at ht'
        rw [ht] at ht'
        cases ht'
        rw [if_neg (by rintro h0; rw [List.length_eq_zero_iff.mp h0] at hq; cases hq)] at hr
        subst hr
        simp
    · cases hr
  · exact ⟨cs, hr, fun _ h => h, fun _ _ h _ => h⟩

/-- All condition lists, with their functions. -/
theorem inferCondDict_spec {width : ScopeChain → Py Nat} : ∀ (ls : FuncDict) (h : AHeap) (cs : List (ACond × DF)) (h' : AHeap),
    (∀ l ∈ ls, l.1 = [] ∨ listsOK width l.1 = true) → (∀ l ∈ ls, (l.1.flatMap DF.terms).Nodup) → inferCondDict width h ls = .ok (cs, h') →
    (∀ ρ, InWidth ρ width → ∀ g, (∃ c, (c, g) ∈ cs ∧ CondIs h' ρ c) ↔ ∃ l, (l, g) ∈ ls ∧ l ≠ [] ∧ AllHold ρ l) ∧
    h.length ≤ h'.length ∧ ∀ q, q < h.length → h'[q]? = h[q]?
  | [], h, cs, h', _, _, hx => by
    simp only [inferCondDict, ok_inj, Prod.mk.injEq] at hx
    obtain ⟨rfl, rfl⟩ := hx
    simp
  | (l, f) :: ls, h, cs, h', hok, hn, hx => by
    simp only [inferCondDict, bind_ok] at hx
    obtain ⟨⟨a, h1⟩, ha, rs, hr, ⟨cs2, h2⟩, hx2, hx⟩ := hx
    simp only [ok_inj, Prod.mk.injEq] at hx
    obtain ⟨rfl, rfl⟩ := hx
    obtain ⟨i1, i3, i4⟩ := inferCondDict_spec ls h1 cs2 h2 (fun l hl => hok l (List.mem_cons_of_mem _ hl)) (fun l hl => hn l (List.mem_cons_of_mem _ hl)) hx2
    simp only at hr
    rcases hok (l, f) (by simp) with hl | hl
    · simp only at hl
      subst hl
      simp only [inferActive, ok_inj, Prod.mk.injEq] at ha
      obtain ⟨rfl, rfl⟩ := ha
      simp only [AC.entries, AC.report, ok_inj] at hr
      subst hr
      refine ⟨?_, i3, i4⟩
      intro ρ hρ g
      simp only [List.map_nil, List.nil_append, i1 ρ hρ g, List.mem_cons, Prod.mk.injEq]
      constructor
      · rintro ⟨l, hl, h⟩; exact ⟨l, .inr hl, h⟩
      · rintro ⟨l, ⟨rfl, _⟩ | hl, hne, h⟩
        · exact absurd rfl hne
        · exact ⟨l, hl, hne, h⟩
    · obtain ⟨a, k, rfl, d, g1, g2⟩ := inferList_denotes hl ha
      obtain ⟨rs', hr', hsub, hback⟩ := entries_report hr
      obtain ⟨r1, r2, r3⟩ := report_spec d hr'
      have hlne : l ≠ [] := by rintro rfl; simp [listsOK] at hl
      have fr : ∀ c ∈ rs, ∀ ρ, CondIs h2 ρ c ↔ CondIs h1 ρ c := by
        intro c hc ρ
        refine forall_congr' fun p => forall_congr' fun hp => ?_
        simp only [TermIs, i4 _ (r3 c (hsub c hc) p hp).2]
      refine ⟨?_, by omega, fun q hq => by rw [i4 q (by omega), g2 q hq]⟩
      intro ρ hρ g
      constructor
      · rintro ⟨c, hc, hh⟩
        rcases List.mem_append.mp hc with hc | hc
        · obtain ⟨c', hc', e⟩ := List.mem_map.mp hc
          simp only [Prod.mk.injEq] at e
          obtain ⟨rfl, rfl⟩ := e
          exact ⟨l, by simp, hlne, r2 (hn (l, f) (by simp)) ρ hρ ⟨c', hsub c' hc', (fr c' hc' ρ).mp hh⟩⟩
        · obtain ⟨l', hl', hh⟩ := (i1 ρ hρ g).mp ⟨c, hc, hh⟩
          exact ⟨l', List.mem_cons_of_mem _ hl', hh⟩
      · rintro ⟨l', hl', hne, hh⟩
        rcases List.mem_cons.mp hl' with e | hl'
        · simp only [Prod.mk.injEq] at e
          obtain ⟨rfl, rfl⟩ := e
          obtain ⟨c, hc, hh⟩ := r1 ρ hρ hh
          have hc' := hback ρ c hc hh
          exact ⟨c, List.mem_append_left _ (List.mem_map.mpr ⟨c, hc', rfl⟩), (fr c hc' ρ).mpr hh⟩
        · obtain ⟨c, hc, hh⟩ := (i1 ρ hρ g).mpr ⟨l', hl', hne, hh⟩
          exact ⟨c, List.mem_append_right _ hc, hh⟩

theorem mem_set_of {α : Type} [DecidableEq α] {β : Type} {p : α × β} : ∀ {d : Dict α β} {k : α} {v : β}, p ∈ Dict.set d k v → p ∈ d ∨ p = (k, v)
  | [], k, v, h => by simpa [Dict.set] using h
  | (k', v') :: d, k, v, h => by
    simp only [Dict.set] at h
    split at h
    · rename_i e
      rcases List.mem_cons.mp h with h | h
      · exact .inr h
      · exact .inl (List.mem_cons_of_mem _ h)
    · rcases List.mem_cons.mp h with h | h
      · exact .inl (by rw [h]; simp)
      · exact (mem_set_of h).imp (List.mem_cons_of_mem _) id

/-- The pairs of the dictionary come from the function dictionary. -/
theorem changedDict_from {isReset : DF → Bool} {name : ScopeChain} : ∀ {fd d : FuncDict} {p : List DF × DF}, p ∈ changedDict isReset name fd d →
    p ∈ d ∨ ∃ e ∈ fd, e.2 ≠ .term name ∧ p = (removeResetCondlist isReset e.1, e.2)
  | [], d, p, h => .inl h
  | (k, f) :: fd, d, p, h => by
    rw [changedDict] at h
    rcases changedDict_from h with h | ⟨e, he, h⟩
    · split at h
      · exact .inl h
      · rename_i hf
        rcases mem_set_of h with h | h
        · exact .inl h
        · exact .inr ⟨(k, f), by simp, hf, h⟩
    · exact .inr ⟨e, List.mem_cons_of_mem _ he, h⟩

/-- No condition list is forgotten. -/
theorem changedDict_has {isReset : DF → Bool} {name : ScopeChain} : ∀ {fd d : FuncDict},
    (∀ k g, (k, g) ∈ d → ∃ g', (k, g') ∈ changedDict isReset name fd d) ∧
    ∀ e ∈ fd, e.2 ≠ .term name → ∃ g, (removeResetCondlist isReset e.1, g) ∈ changedDict isReset name fd d
  | [], d => ⟨fun k g h => ⟨g, h⟩, by simp⟩
  | (k, f) :: fd, d => by
    have old : ∀ {k'} {g'} {d : FuncDict} {k0 v}, (k', g') ∈ d → ∃ g, (k', g) ∈ Dict.set d k0 v := by
      intro k' g' d k0 v hm
      by_cases e : k' = k0
      · exact ⟨v, Dict.mem_of_get? (by rw [Dict.get?_set, if_pos e.symm])⟩
      · cases hg : Dict.get? d k' with
        | some g2 => exact ⟨g2, Dict.mem_of_get? (by rw [Dict.get?_set, if_neg (fun h => e h.symm), hg])⟩
        | none =>
          exfalso
          simp only [Dict.get?, Option.map_eq_none_iff, List.find?_eq_none] at hg
          exact hg _ hm (by simp)
    rw [changedDict]
    refine ⟨?_, ?_⟩
    · intro k' g hm
      split
      · exact changedDict_has.1 k' g hm
      · obtain ⟨g1, h1⟩ := old (k0 := removeResetCondlist isReset k) (v := f) hm
        exact changedDict_has.1 k' g1 h1
    · intro e he hne
      rcases List.mem_cons.mp he with rfl | he
      · rw [if_neg hne]
        exact changedDict_has.1 _ f (Dict.mem_of_get? (by rw [Dict.get?_set, if_pos rfl]))
      · exact changedDict_has.2 e he hne

/-- A condition list of the tree whose other conditions hold holds, outside reset. -/
theorem outOfReset_allHold {isReset : DF → Bool} {ρ : Env} {fd : FuncDict} (hout : OutOfReset isReset ρ fd) {e : List DF × DF} (he : e ∈ fd)
    (hne : removeResetCondlist isReset e.1 ≠ []) (ha : AllHold ρ (removeResetCondlist isReset e.1)) : AllHold ρ e.1 := by
  intro d hd
  cases hd' : isReset d with
  | false => exact ha d (List.mem_filter.mpr ⟨hd, by simp [hd']⟩)
  | true =>
    refine hout.2 e he ?_ d hd hd'
    by_contra hno
    refine hne (filter_reset_nil.mpr fun c hc => ?_)
    cases hcc : isReset c with
    | true => rfl
    | false => exact absurd ⟨c, hc, hcc⟩ hno

end Pyv
