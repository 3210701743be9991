import Verif.Merge
import Verif.Util
import Verif.Props.TransitionProps
/-
  C28: source collection.
-/
namespace Pyv

mutual
/-- The tree has no node of a kind the collector rejects: high impedance, system calls and, unless `delays`, delays. -/
def Collectable (delays : Bool) : DF → Prop
  | .branch c t f => Collectable delays c ∧ Collectable delays t ∧ Collectable delays f
  | .op _ ns => CollectableL delays ns
  | .psel v m l => Collectable delays v ∧ Collectable delays m ∧ Collectable delays l
  | .ptr v p => Collectable delays v ∧ Collectable delays p
  | .concat ns => CollectableL delays ns
  | .delay n => delays = true ∧ Collectable delays n
  | .hiz _ => False
  | .sys _ _ => False
  | _ => True
def CollectableL (delays : Bool) : List DF → Prop
  | [] => True
  | n :: ns => Collectable delays n ∧ CollectableL delays ns
end

theorem mem_setUnion {α : Type} [DecidableEq α] {a b : List α} {x : α} : x ∈ setUnion a b ↔ x ∈ a ∨ x ∈ b := by
  unfold setUnion
  simp only [List.mem_append, List.mem_filter, decide_eq_true_eq]
  by_cases h : x ∈ a <;> simp [h]

theorem nodup_setUnion {α : Type} [DecidableEq α] {a b : List α} (ha : a.Nodup) (hb : b.Nodup) : (setUnion a b).Nodup := by
  unfold setUnion
  rw [List.nodup_append]
  refine ⟨ha, hb.filter _, ?_⟩
  intro x hx y hy
  simp only [List.mem_filter, decide_eq_true_eq] at hy
  rintro rfl
  exact hy.2 hx

/-- What is proved of one tree. -/
def SrcOK (delays : Bool) (t : DF) : Prop :=
  (∀ s, treeSources delays t = .ok s → (∀ x, x ∈ s ↔ x ∈ t.terms) ∧ s.Nodup) ∧
  ((∃ s, treeSources delays t = .ok s) ↔ Collectable delays t)
def SrcOKL (delays : Bool) (ts : List DF) : Prop :=
  (∀ s, treeSourcesList delays ts = .ok s → (∀ x, x ∈ s ↔ x ∈ DF.termsList ts) ∧ s.Nodup) ∧
  ((∃ s, treeSourcesList delays ts = .ok s) ↔ CollectableL delays ts)

theorem srcOKL {delays : Bool} {ns : List DF} (h : ∀ n ∈ ns, SrcOK delays n) : SrcOKL delays ns := by
  induction ns with
  | nil => simp [SrcOKL, treeSourcesList, DF.termsList, CollectableL]
  | cons n ns ih =>
    have hn := h n (by simp)
    have hs := ih (fun m hm => h m (by simp [hm]))
    constructor
    · intro s hs'
      simp only [treeSourcesList, bind_ok, ok_inj] at hs'
      obtain ⟨a, ha, b, hb, rfl⟩ := hs'
      have h1 := hn.1 a ha; have h2 := hs.1 b hb
      refine ⟨fun x => ?_, nodup_setUnion h1.2 h2.2⟩
      rw [mem_setUnion, h1.1, h2.1, DF.termsList, List.mem_append]
    · rw [CollectableL, ← hn.2, ← hs.2]
      constructor
      · rintro ⟨s, h⟩
        simp only [treeSourcesList, bind_ok, ok_inj] at h
        obtain ⟨a, ha, b, hb, _⟩ := h
        exact ⟨⟨a, ha⟩, ⟨b, hb⟩⟩
      · rintro ⟨⟨a, ha⟩, ⟨b, hb⟩⟩
        exact ⟨setUnion a b, by simp only [treeSourcesList, ha, hb, ok_bind]⟩

theorem srcOK_all (delays : Bool) (t : DF) : SrcOK delays t := by
  induction t using DF.ind with
  | none => simp [SrcOK, treeSources, DF.terms, Collectable]
  | term n => simp [SrcOK, treeSources, DF.terms, Collectable]
  | intc n => simp [SrcOK, treeSources, DF.terms, Collectable]
  | fltc n => simp [SrcOK, treeSources, DF.terms, Collectable]
  | strc n => simp [SrcOK, treeSources, DF.terms, Collectable]
  | ev v w x y => simp [SrcOK, treeSources, DF.terms, Collectable]
  | undef n => simp [SrcOK, treeSources, DF.terms, Collectable]
  | hiz n => simp [SrcOK, treeSources, DF.terms, Collectable]
  | sys s ns ih => simp [SrcOK, treeSources, Collectable]
  | op o ns ih =>
    have := srcOKL ih
    simpa only [SrcOK, SrcOKL, treeSources, DF.terms, Collectable] using this
  | concat ns ih =>
    have := srcOKL ih
    simpa only [SrcOK, SrcOKL, treeSources, DF.terms, Collectable] using this
  | psel v m l h1 h2 h3 =>
    constructor
    · intro s hs
      simp only [treeSources, bind_ok, ok_inj] at hs
      obtain ⟨a, ha, b, hb, d, hd, rfl⟩ := hs
      have k1 := h1.1 a ha; have k2 := h2.1 b hb; have k3 := h3.1 d hd
      refine ⟨fun x => ?_, nodup_setUnion (nodup_setUnion k1.2 k2.2) k3.2⟩
      simp only [mem_setUnion, k1.1, k2.1, k3.1, DF.terms, List.mem_append]
    · rw [Collectable, ← h1.2, ← h2.2, ← h3.2]
      constructor
      · rintro ⟨s, h⟩
        simp only [treeSources, bind_ok, ok_inj] at h
        obtain ⟨a, ha, b, hb, d, hd, _⟩ := h
        exact ⟨⟨a, ha⟩, ⟨b, hb⟩, ⟨d, hd⟩⟩
      · rintro ⟨⟨a, ha⟩, ⟨b, hb⟩, ⟨d, hd⟩⟩
        exact ⟨setUnion (setUnion a b) d, by simp only [treeSources, ha, hb, hd, ok_bind]⟩
  | branch v m l h1 h2 h3 =>
    constructor
    · intro s hs
      simp only [treeSources, bind_ok, ok_inj] at hs
      obtain ⟨a, ha, b, hb, d, hd, rfl⟩ := hs
      have k1 := h1.1 a ha; have k2 := h2.1 b hb; have k3 := h3.1 d hd
      refine ⟨fun x => ?_, nodup_setUnion (nodup_setUnion k1.2 k2.2) k3.2⟩
      simp only [mem_setUnion, k1.1, k2.1, k3.1, DF.terms, List.mem_append]
    · rw [Collectable, ← h1.2, ← h2.2, ← h3.2]
      constructor
      · rintro ⟨s, h⟩
        simp only [treeSources, bind_ok, ok_inj] at h
        obtain ⟨a, ha, b, hb, d, hd, _⟩ := h
        exact ⟨⟨a, ha⟩, ⟨b, hb⟩, ⟨d, hd⟩⟩
      · rintro ⟨⟨a, ha⟩, ⟨b, hb⟩, ⟨d, hd⟩⟩
        exact ⟨setUnion (setUnion a b) d, by simp only [treeSources, ha, hb, hd, ok_bind]⟩
  | ptr v m h1 h2 =>
    constructor
    · intro s hs
      simp only [treeSources, bind_ok, ok_inj] at hs
      obtain ⟨a, ha, b, hb, rfl⟩ := hs
      have k1 := h1.1 a ha; have k2 := h2.1 b hb
      refine ⟨fun x => ?_, nodup_setUnion k1.2 k2.2⟩
      simp only [mem_setUnion, k1.1, k2.1, DF.terms, List.mem_append]
    · rw [Collectable, ← h1.2, ← h2.2]
      constructor
      · rintro ⟨s, h⟩
        simp only [treeSources, bind_ok, ok_inj] at h
        obtain ⟨a, ha, b, hb, _⟩ := h
        exact ⟨⟨a, ha⟩, ⟨b, hb⟩⟩
      · rintro ⟨⟨a, ha⟩, ⟨b, hb⟩⟩
        exact ⟨setUnion a b, by simp only [treeSources, ha, hb, ok_bind]⟩
  | delay n h =>
    cases delays
    · simp [SrcOK, treeSources, Collectable]
    · constructor
      · intro s hs
        simp only [treeSources, if_true] at hs
        have := h.1 s hs
        simpa only [DF.terms] using this
      · simp only [treeSources, if_true, Collectable, true_and]
        exact h.2

/-- **C28** The sources collected from a tree are exactly the signals occurring in it, each once.  `delays = false`:
`getTreeSources`; `delays = true`: `getSources`. -/
theorem C28_sources_exact (delays : Bool) (t : DF) (s : List ScopeChain) (h : treeSources delays t = .ok s) :
    (∀ x, x ∈ s ↔ x ∈ t.terms) ∧ s.Nodup := (srcOK_all delays t).1 s h

/-- **C28** The collectors return exactly on the trees without high impedance, system calls and (`getTreeSources` only)
delays. -/
theorem C28_sources_total (delays : Bool) (t : DF) : (∃ s, treeSources delays t = .ok s) ↔ Collectable delays t :=
  (srcOK_all delays t).2

/-- **C28** `getBindSources(n)` is exactly the set of signals occurring in the declared range or dimensions of `n`, or
in the target range, index or source of an assignment to `n`. -/
theorem C28_bind_sources (S : MergeEnv) (n : ScopeChain) (s : List ScopeChain) (h : S.bindSources n = .ok s) (x : ScopeChain) :
    x ∈ s ↔ (∃ t, S.terms.get? n = some t ∧ (x ∈ t.msb.terms ∨ x ∈ t.lsb.terms ∨
        ∃ ds, t.dims = some ds ∧ ∃ d ∈ ds, x ∈ d.1.terms ∨ x ∈ d.2.terms)) ∨
      ∃ bs, S.binds.get? n = some bs ∧ ∃ b ∈ bs, x ∈ b.msb.terms ∨ x ∈ b.lsb.terms ∨ x ∈ b.ptr.terms ∨ x ∈ b.tree.terms := by
  have un : ∀ ts s, unionSources ts = .ok s → ∀ x, x ∈ s ↔ ∃ t ∈ ts, x ∈ t.terms := by
    intro ts s h x
    rw [((srcOKL (fun t _ => srcOK_all false t)).1 s h).1 x, DF.mem_termsList]
  simp only [MergeEnv.bindSources, bind_ok, ok_inj] at h
  obtain ⟨a, ha, b, hb, rfl⟩ := h
  rw [mem_setUnion]
  refine or_congr ?_ ?_
  · unfold MergeEnv.termSources at ha
    cases ht : S.terms.get? n with
    | none => rw [ht] at ha; simp only [ok_inj] at ha; subst ha; simp
    | some t =>
      rw [ht] at ha
      rw [un _ _ ha]
      simp only [Option.some.injEq, exists_eq_left', List.mem_append, List.mem_cons, List.not_mem_nil, or_false,
        List.mem_flatMap]
      constructor
      · rintro ⟨y, (rfl | rfl) | ⟨d, hd, rfl | rfl⟩, hx⟩
        · exact .inl hx
        · exact .inr (.inl hx)
        · cases hds : t.dims with
          | none => simp [hds] at hd
          | some ds => rw [hds] at hd; exact .inr (.inr ⟨ds, rfl, d, hd, .inl hx⟩)
        · cases hds : t.dims with
          | none => simp [hds] at hd
          | some ds => rw [hds] at hd; exact .inr (.inr ⟨ds, rfl, d, hd, .inr hx⟩)
      · rintro (hx | hx | ⟨ds, hds, d, hd, hx | hx⟩)
        · exact ⟨_, .inl (.inl rfl), hx⟩
        · exact ⟨_, .inl (.inr rfl), hx⟩
        · exact ⟨_, .inr ⟨d, by rw [hds]; exact hd, .inl rfl⟩, hx⟩
        · exact ⟨_, .inr ⟨d, by rw [hds]; exact hd, .inr rfl⟩, hx⟩
  · rw [un _ _ hb]
    unfold MergeEnv.bindlist
    simp only [List.mem_flatMap, List.mem_cons, List.not_mem_nil, or_false]
    constructor
    · rintro ⟨y, ⟨c, hc, hy⟩, hx⟩
      cases hbs : S.binds.get? n with
      | none => simp [hbs] at hc
      | some bs =>
        rw [hbs] at hc
        refine ⟨bs, rfl, c, hc, ?_⟩
        rcases hy with rfl | rfl | rfl | rfl
        · exact .inl hx
        · exact .inr (.inl hx)
        · exact .inr (.inr (.inl hx))
        · exact .inr (.inr (.inr hx))
    · rintro ⟨bs, hbs, c, hc, hx⟩
      have hc' : c ∈ (S.binds.get? n).getD [] := by rw [hbs]; exact hc
      rcases hx with hx | hx | hx | hx
      · exact ⟨_, ⟨c, hc', .inl rfl⟩, hx⟩
      · exact ⟨_, ⟨c, hc', .inr (.inl rfl)⟩, hx⟩
      · exact ⟨_, ⟨c, hc', .inr (.inr (.inl rfl))⟩, hx⟩
      · exact ⟨_, ⟨c, hc', .inr (.inr (.inr rfl))⟩, hx⟩

/-- Non-vacuity: `s ? {d, d[s]} : 1`. -/
example : treeSources false (.branch (.term c23s) (.concat [.term c23d, .ptr (.term c23d) (.term c23s)]) (.evi 1 (some 32)))
    = .ok [c23s, c23d] := by decide +kernel
example : MergeEnv.bindSources ⟨[(c23d, ⟨c23d, [.wire], .term c23s, .intc ['0'], none⟩)],
    [(c23d, [⟨.term c23d, c23d, .none, .none, .none, [], none⟩])], [], .ok, .ok, .ok⟩ c23d = .ok [c23s, c23d] := by decide +kernel

end Pyv
