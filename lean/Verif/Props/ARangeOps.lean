import Verif.Props.ARangeProps
/-
  C93: what the operations on active conditions denote.
-/
namespace Pyv

/-- The kind of a result. -/
def AC.kind : AC → AKind
  | .term _ => .term
  | .cond _ => .cond
  | .list _ => .list

/-- The result `a` stands for the predicate `P` on the signals `N`; its terms are at the positions from `lo` to `hi`. -/
structure RangeDenotes (width : ScopeChain → Py Nat) (N : List ScopeChain) (P : Env → Prop) (lo hi : Nat) (h : AHeap) (a : AC) (k : AKind) : Prop where
  kind : a.kind = k
  conds : ∃ cs, a.conds h = .ok cs ∧ (∀ c ∈ cs, TermsAt width N lo hi h c) ∧
    (∀ ρ, InWidth ρ width → ((∃ c ∈ cs, CondIs h ρ c) ↔ P ρ)) ∧ (N.Nodup → ∀ c ∈ cs, CondLive h c)

theorem TermsAt.frame {width N lo hi h h' c} (t : TermsAt width N lo hi h c) (hf : ∀ q, lo ≤ q → q < hi → h'[q]? = h[q]?) :
    TermsAt width N lo hi h' c := by
  refine ⟨t.1, fun p hp => ?_⟩
  obtain ⟨a, b, c, d⟩ := t.2 p hp
  exact ⟨a, b, c, by rw [hf _ a b]; exact d⟩

theorem TermsAt.wide {width N M lo hi lo' hi' h c} (t : TermsAt width N lo hi h c) (h1 : lo' ≤ lo) (h2 : hi ≤ hi') (h3 : ∀ n ∈ N, n ∈ M) :
    TermsAt width M lo' hi' h c := by
  refine ⟨t.1, fun p hp => ?_⟩
  obtain ⟨a, b, c, d⟩ := t.2 p hp
  exact ⟨by omega, by omega, h3 _ c, d⟩

theorem condIs_frame {width N lo hi h h' c} (t : TermsAt width N lo hi h c) (hf : ∀ q, lo ≤ q → q < hi → h'[q]? = h[q]?) (ρ : Env) :
    CondIs h' ρ c ↔ CondIs h ρ c := by
  refine forall_congr' fun p => forall_congr' fun hp => ?_
  obtain ⟨a, b, _⟩ := t.2 p hp
  simp only [TermIs, hf _ a b]

theorem condLive_frame {width N lo hi h h' c} (t : TermsAt width N lo hi h c) (hf : ∀ q, lo ≤ q → q < hi → h'[q]? = h[q]?) (l : CondLive h c) :
    CondLive h' c := by
  intro p hp t' ht'
  obtain ⟨a, b, _⟩ := t.2 p hp
  rw [hf _ a b] at ht'
  exact l p hp t' ht'

theorem RangeDenotes.frame {width N P lo hi h h' a k} (d : RangeDenotes width N P lo hi h a k) (hf : ∀ q, lo ≤ q → q < hi → h'[q]? = h[q]?) :
    RangeDenotes width N P lo hi h' a k := by
  obtain ⟨hk, cs, h1, h2, h3, h4⟩ := d
  refine ⟨hk, cs, ?_, fun c hc => (h2 c hc).frame hf, ?_, fun hn c hc => condLive_frame (h2 c hc) hf (h4 hn c hc)⟩
  · cases a with
    | term r =>
      simp only [AC.conds, bind_ok, ok_inj] at h1 ⊢
      obtain ⟨c, hc, rfl⟩ := h1
      refine ⟨c, ?_, rfl⟩
      simp only [single] at hc ⊢
      cases hr : h[r]? with
      | none => rw [hr] at hc; cases hc
      | some t =>
        rw [hr] at hc
        simp only [ok_inj] at hc
        subst hc
        obtain ⟨a, b, _⟩ := (h2 [(t.name, r)] (by simp)).2 (t.name, r) (by simp)
        simp only at a b
        rw [hf _ a b, hr]
    | cond c => exact h1
    | list cs => exact h1
  · intro ρ hρ
    rw [← h3 ρ hρ]
    exact exists_congr fun c => and_congr_right fun hc => condIs_frame (h2 c hc) hf ρ

theorem RangeDenotes.imp {width N P Q lo hi h a k} (d : RangeDenotes width N P lo hi h a k) (e : ∀ ρ, InWidth ρ width → (P ρ ↔ Q ρ)) :
    RangeDenotes width N Q lo hi h a k := by
  obtain ⟨hk, cs, h1, h2, h3, h4⟩ := d
  exact ⟨hk, cs, h1, h2, fun ρ hρ => (h3 ρ hρ).trans (e ρ hρ), h4⟩

/-! ### Conjunctions -/

/-- The loop over the conditions `cs` with the terms `es`. -/
theorem mergeEach_denotes {width N M NM l1 h1 l2 h2 l0 h0} {h h' : AHeap} {es : ACond} {cs cs' : List ACond}
    (hc : ∀ c ∈ cs, TermsAt width N l1 h1 h c) (he : TermsAt width M l2 h2 h es) (hsep : h1 ≤ l2 ∨ h2 ≤ l1)
    (b1 : l0 ≤ l1) (b2 : h1 ≤ h0) (b3 : l0 ≤ l2) (b4 : h2 ≤ h0) (hN : ∀ n ∈ N, n ∈ NM) (hM : ∀ n ∈ M, n ∈ NM)
    (hm : mergeEach h es cs = .ok (cs', h')) :
    (∀ c ∈ cs', TermsAt width NM l0 h0 h' c) ∧
    (∀ ρ, (∃ c ∈ cs', CondIs h' ρ c) ↔ (∃ c ∈ cs, CondIs h ρ c) ∧ CondIs h ρ es) ∧
    ((∀ n ∈ N, n ∉ M) → (∀ c ∈ cs, CondLive h c) → CondLive h es → ∀ c ∈ cs', CondLive h' c) ∧
    (∀ q, (q < l0 ∨ h0 ≤ q) → h'[q]? = h[q]?) ∧ h'.length = h.length := by
  let A : Nat → Prop := fun q => l1 ≤ q ∧ q < h1
  let X : ScopeChain → Int → Prop := fun n x => ∀ r, (n, r) ∈ es → ∃ t, h[r]? = some t ∧ t.Has x
  have hX : ∀ p ∈ es, ¬ A p.2 ∧ ∃ t, h[p.2]? = some t ∧ ∀ x, X p.1 x ↔ t.Has x := by
    intro p hp
    obtain ⟨a1, a2, _, t, a3, _⟩ := he.2 p hp
    refine ⟨fun hA => by simp only [A] at hA; omega, t, a3, fun x => ?_⟩
    constructor
    · intro hx
      obtain ⟨t', e, hh⟩ := hx p.2 hp
      rw [a3] at e; cases e; exact hh
    · intro hx r hr
      have e1 := Dict.get?_of_mem he.1 hr
      have e2 := Dict.get?_of_mem he.1 (show (p.1, p.2) ∈ es from hp)
      rw [e1] at e2; cases e2
      exact ⟨t, a3, hx⟩
  have hX0 : ∀ n, n ∉ es.map (·.1) → ∀ x, X n x := by
    intro n hn x r hr
    exact absurd (List.mem_map.mpr ⟨_, hr, rfl⟩) hn
  obtain ⟨cut, f⟩ := mergeEach_spec (A := A) (X := X) he.1 cs h cs' h' (fun c h => (hc c h).1) hX (by
    intro c hcc n _ q hq
    obtain ⟨a1, a2, _, t, a3, a4, _⟩ := (hc c hcc).2 (n, q) (Dict.mem_of_get? hq)
    exact ⟨⟨a1, a2⟩, t, a3, a4⟩) hm
  refine ⟨?_, ?_, ?_, ?_, cut.len⟩
  · intro c' hc'
    obtain ⟨c, hcc, m⟩ := forall₂_mem_right f _ hc'
    have hcm := hc c hcc
    exact (mergedOf_terms hcm he cut m b1 b2 b3 b4).wide (Nat.le_refl _) (Nat.le_refl _) (by
      intro n hn
      rcases List.mem_append.mp hn with hn | hn
      · exact hN n hn
      · exact hM n hn)
  · intro ρ
    constructor
    · rintro ⟨c', hc', hi⟩
      obtain ⟨c, hcc, m⟩ := forall₂_mem_right f _ hc'
      have := (mergedOf_is (ρ := ρ) (hc c hcc) he hX hX0 cut m).mp hi
      exact ⟨⟨c, hcc, this.1⟩, this.2⟩
    · rintro ⟨⟨c, hcc, hi⟩, hes⟩
      obtain ⟨c', hc', m⟩ := forall₂_mem_left f _ hcc
      exact ⟨c', hc', (mergedOf_is (ρ := ρ) (hc c hcc) he hX hX0 cut m).mpr ⟨hi, hes⟩⟩
  · intro hd lc le c' hc'
    obtain ⟨c, hcc, m⟩ := forall₂_mem_right f _ hc'
    exact mergedOf_live (hc c hcc) he (fun p hp => (hX p hp).1) hX0 hd cut m (lc c hcc) le
  · intro q hq
    cases hh : h[q]? with
    | none =>
      rw [List.getElem?_eq_none_iff] at hh ⊢
      rw [cut.len]; exact hh
    | some t => exact cut.keep (fun hA => by simp only [A] at hA; omega) hh

theorem mergeEach_one {h h' : AHeap} {es c c' : ACond} (hm : ACond.merge c h es = .ok (c', h')) : mergeEach h es [c] = .ok ([c'], h') := by
  simp [mergeEach, hm, ok_bind]

theorem mergeUnder_disjoint {h : AHeap} {c : ACond} : ∀ {rs : List ACond}, (∀ e ∈ rs, e.Nodup ∧ ∀ p ∈ e, ∀ q ∈ c, q.1 ≠ p.1) →
    mergeUnder h c rs = .ok (rs.map (fun e => (c ++ e : List (ScopeChain × Nat))), h) := by
  intro rs
  induction rs with
  | nil => intro _; rfl
  | cons e rs ih =>
    intro hd
    obtain ⟨h1, h2⟩ := hd e (by simp)
    simp only [mergeUnder, merge_disjoint e c h h1 h2, ok_bind, ih (fun e he => hd e (by simp [he])), List.map_cons]

theorem mergeEach_disjoint {h : AHeap} {e : ACond} (hn : e.Nodup) : ∀ {ls : List ACond}, (∀ c ∈ ls, ∀ p ∈ e, ∀ q ∈ c, q.1 ≠ p.1) →
    mergeEach h e ls = .ok (ls.map (fun c => (c ++ e : List (ScopeChain × Nat))), h) := by
  intro ls
  induction ls with
  | nil => intro _; rfl
  | cons c ls ih =>
    intro hd
    simp only [mergeEach, merge_disjoint e c h hn (hd c (by simp)), ok_bind, ih (fun e he => hd e (by simp [he])), List.map_cons]

theorem mergeAll_disjoint {h : AHeap} {ls : List ACond} : ∀ {rs : List ACond}, (∀ e ∈ rs, e.Nodup ∧ ∀ c ∈ ls, ∀ p ∈ e, ∀ q ∈ c, q.1 ≠ p.1) →
    mergeAll h ls rs = .ok (rs.flatMap (fun e => ls.map (fun c => (c ++ e : List (ScopeChain × Nat)))), h) := by
  intro rs
  induction rs with
  | nil => intro _; rfl
  | cons e rs ih =>
    intro hd
    obtain ⟨h1, h2⟩ := hd e (by simp)
    simp only [mergeAll, mergeEach_disjoint h1 h2, ok_bind, ih (fun e he => hd e (by simp [he])), List.flatMap_cons]

theorem condIs_append {h : AHeap} {ρ : Env} {c e : List (ScopeChain × Nat)} : CondIs h ρ (c ++ e) ↔ CondIs h ρ c ∧ CondIs h ρ e := by
  simp only [CondIs, List.mem_append, or_imp, forall_and]

theorem TermsAt.append {width N M l1 h1 l2 h2 l0 h0} {h : AHeap} {c e : ACond} (hc : TermsAt width N l1 h1 h c) (he : TermsAt width M l2 h2 h e)
    (b1 : l0 ≤ l1) (b2 : h1 ≤ h0) (b3 : l0 ≤ l2) (b4 : h2 ≤ h0) (hd : ∀ n ∈ N, n ∉ M) : TermsAt width (N ++ M) l0 h0 h (c ++ e : List (ScopeChain × Nat)) := by
  refine ⟨?_, ?_⟩
  · simp only [Dict.Nodup, List.map_append]
    refine List.Nodup.append hc.1 he.1 ?_
    intro n h3 h4
    rw [List.mem_map] at h3 h4
    obtain ⟨p, hp, rfl⟩ := h3
    obtain ⟨q, hq, e⟩ := h4
    exact hd _ (hc.2 p hp).2.2.1 (e ▸ (he.2 q hq).2.2.1)
  · intro p hp
    rcases List.mem_append.mp hp with hp | hp
    · exact (hc.wide b1 b2 (M := N ++ M) (fun n hn => by simp [hn])).2 p hp
    · exact (he.wide b3 b4 (M := N ++ M) (fun n hn => by simp [hn])).2 p hp

theorem CondLive.append {h : AHeap} {c e : List (ScopeChain × Nat)} (hc : CondLive h c) (he : CondLive h e) : CondLive h (c ++ e : List (ScopeChain × Nat)) := by
  intro p hp
  rcases List.mem_append.mp hp with hp | hp
  · exact hc p hp
  · exact he p hp

/-- The conditions of a term or of a conjunction. -/
theorem RangeDenotes.conj {width N P lo hi h a k} (d : RangeDenotes width N P lo hi h a k) (hk : k ≠ .list) :
    ∃ c, a.conds h = .ok [c] ∧ TermsAt width N lo hi h c ∧ (∀ ρ, InWidth ρ width → (CondIs h ρ c ↔ P ρ)) ∧ (N.Nodup → CondLive h c) := by
  obtain ⟨hkk, cs, h1, h2, h3, h4⟩ := d
  have : ∃ c, a.conds h = .ok [c] := by
    cases a with
    | term r =>
      simp only [AC.conds, bind_ok, ok_inj] at h1 ⊢
      obtain ⟨c, hc, rfl⟩ := h1
      exact ⟨c, c, hc, rfl⟩
    | cond c => exact ⟨c, rfl⟩
    | list cs => exact absurd hkk.symm hk
  obtain ⟨c, hc⟩ := this
  rw [hc] at h1
  simp only [ok_inj] at h1
  subst h1
  refine ⟨c, hc, h2 c (by simp), ?_, fun hn => h4 hn c (by simp)⟩
  intro ρ hρ
  rw [← h3 ρ hρ]
  simp

/-- Every conjunction goes through one of four loops. -/
theorem activeAnd_cases {h h' : AHeap} {a b : AC} {x : Option AC} (hx : activeAnd h (some a) (some b) = .ok (x, h')) :
    (∃ c e y, a.kind ≠ .list ∧ b.kind ≠ .list ∧ a.conds h = .ok [c] ∧ b.conds h = .ok [e] ∧ ACond.merge c h e = .ok (y, h') ∧ x = some (.cond y)) ∨
    (∃ e rs ys, a.kind = .term ∧ b.kind = .list ∧ a.conds h = .ok [e] ∧ b.conds h = .ok rs ∧ mergeEach h e rs = .ok (ys, h') ∧ x = some (.list ys)) ∨
    (∃ c rs ys, a.kind = .cond ∧ b.kind = .list ∧ a.conds h = .ok [c] ∧ b.conds h = .ok rs ∧ mergeUnder h c rs = .ok (ys, h') ∧ x = some (.list ys)) ∨
    (∃ ls e ys, a.kind = .list ∧ b.kind ≠ .list ∧ a.conds h = .ok ls ∧ b.conds h = .ok [e] ∧ mergeEach h e ls = .ok (ys, h') ∧ x = some (.list ys)) ∨
    (∃ ls rs ys, a.kind = .list ∧ b.kind = .list ∧ a.conds h = .ok ls ∧ b.conds h = .ok rs ∧ mergeAll h ls rs = .ok (ys, h') ∧ x = some (.list ys)) := by
  cases a with
  | term l =>
    cases b with
    | term r =>
      simp only [activeAnd, bind_ok, ok_inj, Prod.mk.injEq] at hx
      obtain ⟨c, hc, e, he, ⟨y, h2⟩, hy, rfl, rfl⟩ := hx
      exact .inl ⟨c, e, y, by simp [AC.kind], by simp [AC.kind], by simp [AC.conds, hc, ok_bind], by simp [AC.conds, he, ok_bind], hy, rfl⟩
    | cond e =>
      simp only [activeAnd, bind_ok, ok_inj, Prod.mk.injEq] at hx
      obtain ⟨c, hc, ⟨y, h2⟩, hy, rfl, rfl⟩ := hx
      exact .inl ⟨c, e, y, by simp [AC.kind], by simp [AC.kind], by simp [AC.conds, hc, ok_bind], rfl, hy, rfl⟩
    | list rs =>
      simp only [activeAnd, bind_ok, ok_inj, Prod.mk.injEq] at hx
      obtain ⟨c, hc, ⟨y, h2⟩, hy, rfl, rfl⟩ := hx
      exact .inr (.inl ⟨c, rs, y, rfl, rfl, by simp [AC.conds, hc, ok_bind], rfl, hy, rfl⟩)
  | cond l =>
    cases b with
    | term r =>
      simp only [activeAnd, bind_ok, ok_inj, Prod.mk.injEq] at hx
      obtain ⟨e, he, ⟨y, h2⟩, hy, rfl, rfl⟩ := hx
      exact .inl ⟨l, e, y, by simp [AC.kind], by simp [AC.kind], rfl, by simp [AC.conds, he, ok_bind], hy, rfl⟩
    | cond e =>
      simp only [activeAnd, bind_ok, ok_inj, Prod.mk.injEq] at hx
      obtain ⟨⟨y, h2⟩, hy, rfl, rfl⟩ := hx
      exact .inl ⟨l, e, y, by simp [AC.kind], by simp [AC.kind], rfl, rfl, hy, rfl⟩
    | list rs =>
      simp only [activeAnd, bind_ok, ok_inj, Prod.mk.injEq] at hx
      obtain ⟨⟨y, h2⟩, hy, rfl, rfl⟩ := hx
      exact .inr (.inr (.inl ⟨l, rs, y, rfl, rfl, rfl, rfl, hy, rfl⟩))
  | list ls =>
    cases b with
    | term r =>
      simp only [activeAnd, bind_ok, ok_inj, Prod.mk.injEq] at hx
      obtain ⟨e, he, ⟨y, h2⟩, hy, rfl, rfl⟩ := hx
      exact .inr (.inr (.inr (.inl ⟨ls, e, y, rfl, by simp [AC.kind], rfl, by simp [AC.conds, he, ok_bind], hy, rfl⟩)))
    | cond e =>
      simp only [activeAnd, bind_ok, ok_inj, Prod.mk.injEq] at hx
      obtain ⟨⟨y, h2⟩, hy, rfl, rfl⟩ := hx
      exact .inr (.inr (.inr (.inl ⟨ls, e, y, rfl, by simp [AC.kind], rfl, rfl, hy, rfl⟩)))
    | list rs =>
      simp only [activeAnd, bind_ok, ok_inj, Prod.mk.injEq] at hx
      obtain ⟨⟨y, h2⟩, hy, rfl, rfl⟩ := hx
      exact .inr (.inr (.inr (.inr ⟨ls, rs, y, rfl, rfl, rfl, rfl, hy, rfl⟩)))

/-- A conjunction. -/
theorem activeAnd_denotes {width N M P Q lo mi hi} {h h' : AHeap} {a b : AC} {ka kb k : AKind} {x : Option AC} (hlo : lo ≤ mi) (hmi : mi ≤ hi)
    (da : RangeDenotes width N P lo mi h a ka) (db : RangeDenotes width M Q mi hi h b kb) (hk : conjKind N M ka kb = some k)
    (hx : activeAnd h (some a) (some b) = .ok (x, h')) :
    ∃ c, x = some c ∧ RangeDenotes width (N ++ M) (fun ρ => P ρ ∧ Q ρ) lo hi h' c k ∧ (∀ q, (q < lo ∨ hi ≤ q) → h'[q]? = h[q]?) ∧
      h'.length = h.length := by
  have hnd : (N ++ M).Nodup → N.Nodup ∧ M.Nodup ∧ (∀ n ∈ N, n ∉ M) ∧ ∀ n ∈ M, n ∉ N := by
    intro hn
    rw [List.nodup_append] at hn
    exact ⟨hn.1, hn.2.1, fun n h1 h2 => hn.2.2 n h1 n h2 rfl, fun n h1 h2 => hn.2.2 n h2 n h1 rfl⟩
  rcases activeAnd_cases hx with ⟨c, e, y, k1, k2, hc, he, hy, rfl⟩ | ⟨e, rs, ys, k1, k2, he, hr, hy, rfl⟩ | ⟨c, rs, ys, k1, k2, hc, hr, hy, rfl⟩ |
    ⟨ls, e, ys, k1, k2, hl, he, hy, rfl⟩ | ⟨ls, rs, ys, k1, k2, hl, hr, hy, rfl⟩
  · rw [da.kind] at k1; rw [db.kind] at k2
    obtain ⟨c', hc', tc, pc, lc⟩ := da.conj k1
    obtain ⟨e', he', te, pe, le⟩ := db.conj k2
    rw [hc] at hc'; simp only [ok_inj, List.cons.injEq, and_true] at hc'; subst hc'
    rw [he] at he'; simp only [ok_inj, List.cons.injEq, and_true] at he'; subst he'
    obtain ⟨r1, r2, r3, r4, r5⟩ := mergeEach_denotes (l0 := lo) (h0 := hi) (NM := N ++ M) (cs := [c]) (by simpa using tc) te (.inl (Nat.le_refl _))
      (Nat.le_refl _) hmi hlo (Nat.le_refl _) (fun n h => by simp [h]) (fun n h => by simp [h]) (mergeEach_one hy)
    refine ⟨_, rfl, ⟨?_, [y], rfl, r1, ?_, ?_⟩, r4, r5⟩
    · cases ka <;> cases kb <;> first | (exact absurd rfl k1) | (exact absurd rfl k2) | (simp only [conjKind, Option.some.injEq] at hk; subst hk; rfl)
    · intro ρ hρ
      rw [r2, pe ρ hρ]
      simp [pc ρ hρ]
    · intro hn
      obtain ⟨n1, n2, n3, n4⟩ := hnd hn
      exact r3 n3 (by simpa using lc n1) (le n2)
  · rw [da.kind] at k1; rw [db.kind] at k2
    obtain ⟨e', he', te, pe, le⟩ := da.conj (by rw [k1]; simp)
    obtain ⟨_, rs', hr', tr, pr, lr⟩ := db
    rw [he] at he'; simp only [ok_inj, List.cons.injEq, and_true] at he'; subst he'
    rw [hr] at hr'; simp only [ok_inj] at hr'; subst hr'
    obtain ⟨r1, r2, r3, r4, r5⟩ := mergeEach_denotes (l0 := lo) (h0 := hi) (NM := N ++ M) tr te (.inr (Nat.le_refl _))
      hlo (Nat.le_refl _) (Nat.le_refl _) hmi (fun n h => by simp [h]) (fun n h => by simp [h]) hy
    refine ⟨_, rfl, ⟨?_, ys, rfl, r1, ?_, ?_⟩, r4, r5⟩
    · subst k1; subst k2; simp only [conjKind, Option.some.injEq] at hk; subst hk; rfl
    · intro ρ hρ
      rw [r2, pe ρ hρ, pr ρ hρ]
      exact and_comm
    · intro hn
      obtain ⟨n1, n2, n3, n4⟩ := hnd hn
      exact r3 n4 (lr n2) (le n1)
  · rw [da.kind] at k1; rw [db.kind] at k2
    obtain ⟨c', hc', tc, pc, lc⟩ := da.conj (by rw [k1]; simp)
    obtain ⟨_, rs', hr', tr, pr, lr⟩ := db
    rw [hc] at hc'; simp only [ok_inj, List.cons.injEq, and_true] at hc'; subst hc'
    rw [hr] at hr'; simp only [ok_inj] at hr'; subst hr'
    subst k1; subst k2
    simp only [conjKind] at hk
    split at hk
    case isFalse => cases hk
    rename_i hd
    simp only [Option.some.injEq] at hk
    subst hk
    rw [mergeUnder_disjoint (fun e he => ⟨(tr e he).1, fun p hp q hq e' => hd _ (tc.2 q hq).2.2.1 (e' ▸ ((tr e he).2 p hp).2.2.1)⟩)] at hy
    simp only [ok_inj, Prod.mk.injEq] at hy
    obtain ⟨rfl, rfl⟩ := hy
    refine ⟨_, rfl, ⟨rfl, _, rfl, ?_, ?_, ?_⟩, fun _ _ => rfl, rfl⟩
    · intro y hy
      rw [List.mem_map] at hy
      obtain ⟨e, he, rfl⟩ := hy
      exact tc.append (tr e he) (Nat.le_refl _) hmi hlo (Nat.le_refl _) hd
    · intro ρ hρ
      rw [← pc ρ hρ, ← pr ρ hρ]
      simp only [List.mem_map, exists_exists_and_eq_and, condIs_append]
      exact ⟨fun ⟨e, h1, h2, h3⟩ => ⟨h2, e, h1, h3⟩, fun ⟨h2, e, h1, h3⟩ => ⟨e, h1, h2, h3⟩⟩
    · intro hn y hy
      obtain ⟨n1, n2, n3, n4⟩ := hnd hn
      rw [List.mem_map] at hy
      obtain ⟨e, he, rfl⟩ := hy
      exact (lc n1).append (lr n2 e he)
  · rw [da.kind] at k1; rw [db.kind] at k2
    obtain ⟨e', he', te, pe, le⟩ := db.conj k2
    obtain ⟨_, ls', hl', tl, pl, ll⟩ := da
    rw [he] at he'; simp only [ok_inj, List.cons.injEq, and_true] at he'; subst he'
    rw [hl] at hl'; simp only [ok_inj] at hl'; subst hl'
    obtain ⟨r1, r2, r3, r4, r5⟩ := mergeEach_denotes (l0 := lo) (h0 := hi) (NM := N ++ M) tl te (.inl (Nat.le_refl _))
      (Nat.le_refl _) hmi hlo (Nat.le_refl _) (fun n h => by simp [h]) (fun n h => by simp [h]) hy
    refine ⟨_, rfl, ⟨?_, ys, rfl, r1, ?_, ?_⟩, r4, r5⟩
    · subst k1
      cases kb <;> first | (exact absurd rfl k2) | (simp only [conjKind, Option.some.injEq] at hk; subst hk; rfl)
    · intro ρ hρ
      rw [r2, pe ρ hρ, pl ρ hρ]
    · intro hn
      obtain ⟨n1, n2, n3, n4⟩ := hnd hn
      exact r3 n3 (ll n1) (le n2)
  · rw [da.kind] at k1; rw [db.kind] at k2
    obtain ⟨_, ls', hl', tl, pl, ll⟩ := da
    obtain ⟨_, rs', hr', tr, pr, lr⟩ := db
    rw [hl] at hl'; simp only [ok_inj] at hl'; subst hl'
    rw [hr] at hr'; simp only [ok_inj] at hr'; subst hr'
    subst k1; subst k2
    simp only [conjKind] at hk
    split at hk
    case isFalse => cases hk
    rename_i hd
    simp only [Option.some.injEq] at hk
    subst hk
    rw [mergeAll_disjoint (fun e he => ⟨(tr e he).1, fun c hc p hp q hq e' => hd _ ((tl c hc).2 q hq).2.2.1 (e' ▸ ((tr e he).2 p hp).2.2.1)⟩)] at hy
    simp only [ok_inj, Prod.mk.injEq] at hy
    obtain ⟨rfl, rfl⟩ := hy
    refine ⟨_, rfl, ⟨rfl, _, rfl, ?_, ?_, ?_⟩, fun _ _ => rfl, rfl⟩
    · intro y hy
      simp only [List.mem_flatMap, List.mem_map] at hy
      obtain ⟨e, he, c, hc, rfl⟩ := hy
      exact (tl c hc).append (tr e he) (Nat.le_refl _) hmi hlo (Nat.le_refl _) hd
    · intro ρ hρ
      rw [← pl ρ hρ, ← pr ρ hρ]
      constructor
      · rintro ⟨y, hy, hi⟩
        simp only [List.mem_flatMap, List.mem_map] at hy
        obtain ⟨e, he, c, hc, rfl⟩ := hy
        rw [condIs_append] at hi
        exact ⟨⟨c, hc, hi.1⟩, e, he, hi.2⟩
      · rintro ⟨⟨c, hc, h1⟩, e, he, h2⟩
        exact ⟨_, by simp only [List.mem_flatMap, List.mem_map]; exact ⟨e, he, c, hc, rfl⟩, condIs_append.mpr ⟨h1, h2⟩⟩
    · intro hn y hy
      obtain ⟨n1, n2, n3, n4⟩ := hnd hn
      simp only [List.mem_flatMap, List.mem_map] at hy
      obtain ⟨e, he, c, hc, rfl⟩ := hy
      exact (ll n1 c hc).append (lr n2 e he)

/-- A disjunction. -/
theorem activeOr_denotes {width N M P Q lo mi hi} {h : AHeap} {a b : AC} {ka kb : AKind} {x : Option AC} (hlo : lo ≤ mi) (hmi : mi ≤ hi)
    (da : RangeDenotes width N P lo mi h a ka) (db : RangeDenotes width M Q mi hi h b kb) (hx : activeOr h (some a) (some b) = .ok x) :
    ∃ c, x = some c ∧ RangeDenotes width (N ++ M) (fun ρ => P ρ ∨ Q ρ) lo hi h c .list := by
  obtain ⟨_, ls, hl, tl, pl, ll⟩ := da
  obtain ⟨_, rs, hr, tr, pr, lr⟩ := db
  simp only [activeOr, hl, hr, ok_bind, ok_inj] at hx
  subst hx
  refine ⟨_, rfl, rfl, _, rfl, ?_, ?_, ?_⟩
  · intro c hc
    rcases List.mem_append.mp hc with hc | hc
    · exact (tl c hc).wide (Nat.le_refl _) hmi (fun n h => by simp [h])
    · exact (tr c hc).wide hlo (Nat.le_refl _) (fun n h => by simp [h])
  · intro ρ hρ
    rw [← pl ρ hρ, ← pr ρ hρ]
    simp only [List.mem_append, or_and_right, exists_or]
  · intro hn c hc
    rw [List.nodup_append] at hn
    rcases List.mem_append.mp hc with hc | hc
    · exact ll hn.1 c hc
    · exact lr hn.2.1 c hc

end Pyv
