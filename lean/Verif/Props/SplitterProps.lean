import Verif.Splitter
import Verif.Sem
import Verif.Util
import Mathlib.Data.List.Nodup
/-
  C18, C19, C46: splitting a conditional tree into condition lists and functions.
-/
namespace Pyv

/-! ### Specification -/

/-- A condition holds under a valuation: it has a value different from 0. -/
def Holds (ρ : Env) (c : DF) : Prop := ∃ x, sem ρ c = some x ∧ x.1 ≠ 0

/-- A condition list holds when all its conditions do. -/
def AllHold (ρ : Env) (cs : List DF) : Prop := ∀ c ∈ cs, Holds ρ c

/-- The leaf a conditional tree selects under a valuation: `none` when the selected leaf is missing or a condition
on the way has no value. -/
def selectLeaf (ρ : Env) : DF → Option DF
  | .branch c t f =>
    match sem ρ c with
    | some x => if x.1 ≠ 0 then selectLeaf ρ t else selectLeaf ρ f
    | none => none
  | .none => none
  | leaf => some leaf

/-- A tree that has a leaf at all. -/
def HasLeaf : DF → Prop
  | .branch _ t f => HasLeaf t ∨ HasLeaf f
  | .none => False
  | _ => True

/-- Every conditional of the tree has a leaf below it. -/
def NoHollow : DF → Prop
  | .branch _ t f => (HasLeaf t ∨ HasLeaf f) ∧ NoHollow t ∧ NoHollow f
  | _ => True

/-! ### Lemmas -/

theorem Dict.set_new {κ α : Type} [DecidableEq κ] {d : Dict κ α} {k : κ} (h : ∀ p ∈ d, p.1 ≠ k) (v : α) :
    d.set k v = d ++ [(k, v)] := by
  induction d with
  | nil => rfl
  | cons p d ih =>
    obtain ⟨a, b⟩ := p
    have h1 : a ≠ k := h (a, b) (by simp)
    simp only [Dict.set, h1, if_false, List.cons_append]
    rw [ih (fun q hq => h q (by simp [hq]))]

theorem addPrefixed_eq {c : DF} {fd funcs : FuncDict} (hn : Dict.Nodup funcs)
    (hf : ∀ p ∈ fd, ∀ k, p.1 ≠ c :: k) :
    addPrefixed c fd funcs = fd ++ funcs.map (fun p => (c :: p.1, p.2)) := by
  induction funcs generalizing fd with
  | nil => simp [addPrefixed]
  | cons q funcs ih =>
    simp only [Dict.Nodup, List.map_cons, List.nodup_cons] at hn
    have h1 : addPrefixed c fd (q :: funcs) = addPrefixed c (fd.set (c :: q.1) q.2) funcs := rfl
    rw [h1, Dict.set_new (fun p hp => hf p hp q.1)]
    by_cases he : ∃ p ∈ funcs, p.1 = q.1
    · obtain ⟨p, hp, e⟩ := he
      exact absurd (List.mem_map.mpr ⟨p, hp, e⟩) hn.1
    · -- the new key starts with `c`, so the induction hypothesis needs the weaker freshness
      clear ih
      have gen : ∀ (fs : FuncDict) (d : FuncDict), Dict.Nodup fs →
          (∀ p ∈ fs, ∀ r ∈ d, r.1 ≠ c :: p.1) →
          addPrefixed c d fs = d ++ fs.map (fun p => (c :: p.1, p.2)) := by
        intro fs
        induction fs with
        | nil => intro d _ _; simp [addPrefixed]
        | cons s fs ih2 =>
          intro d hnd hfr
          simp only [Dict.Nodup, List.map_cons, List.nodup_cons] at hnd
          have h2 : addPrefixed c d (s :: fs) = addPrefixed c (d.set (c :: s.1) s.2) fs := rfl
          rw [h2, Dict.set_new (fun r hr => hfr s (by simp) r hr), ih2 _ hnd.2]
          · simp
          · intro p hp r hr
            rcases List.mem_append.mp hr with hr | hr
            · exact hfr p (by simp [hp]) r hr
            · simp at hr; subst hr
              intro e
              simp at e
              exact hnd.1 (List.mem_map.mpr ⟨p, hp, e.symm⟩)
      rw [gen funcs _ hn.2]
      · simp
      · intro p hp r hr
        rcases List.mem_append.mp hr with hr | hr
        · exact hf r hr p.1
        · simp at hr; subst hr
          intro e
          simp at e
          exact he ⟨p, hp, e.symm⟩

/-- The entries contributed by one side of a conditional. -/
def sideEntries (c side : DF) (funcs : FuncDict) : FuncDict :=
  if funcs = [] then (if side = .none then [] else [([c], side)]) else funcs.map (fun p => (c :: p.1, p.2))

theorem addSide_eq {c side : DF} {fd funcs : FuncDict} (hn : Dict.Nodup funcs) (hf : ∀ p ∈ fd, ∀ k, p.1 ≠ c :: k) :
    addSide c side funcs fd = fd ++ sideEntries c side funcs := by
  unfold addSide sideEntries
  cases funcs with
  | nil =>
    simp only [List.length_nil, gt_iff_lt, Nat.lt_irrefl, if_false, if_true]
    by_cases h : side = .none
    · simp [h]
    · simp only [ne_eq, h, not_false_eq_true, if_true, if_false]
      exact Dict.set_new (fun p hp => hf p hp []) side
  | cons q fs =>
    simp only [List.length_cons, gt_iff_lt, Nat.zero_lt_succ, if_true]
    rw [addPrefixed_eq hn hf]; simp

theorem not_self (c : DF) : c ≠ .op .ulnot [c] := by
  intro h
  have := congrArg sizeOf h
  simp at this
  omega

theorem sideEntries_key {c side : DF} {funcs : FuncDict} : ∀ p ∈ sideEntries c side funcs, ∃ k, p.1 = c :: k := by
  intro p hp
  unfold sideEntries at hp
  split at hp
  · split at hp
    · simp at hp
    · simp at hp; subst hp; exact ⟨[], rfl⟩
  · obtain ⟨q, _, rfl⟩ := List.mem_map.mp hp; exact ⟨q.1, rfl⟩

theorem sideEntries_nodup {c side : DF} {funcs : FuncDict} (hn : Dict.Nodup funcs) :
    Dict.Nodup (sideEntries c side funcs) := by
  unfold sideEntries Dict.Nodup
  split
  · split <;> simp
  · rw [List.map_map]
    have : ((fun p : List DF × DF => p.1) ∘ fun p : List DF × DF => (c :: p.1, p.2)) = (fun k => c :: k) ∘ (·.1) := rfl
    rw [this, ← List.map_map]
    exact List.Nodup.map (fun a b h => by simpa using h) hn

/-- The shape of `split` of a conditional. -/
theorem split_branch {c t f : DF} {fd : FuncDict} (h : split (.branch c t f) = .ok fd) :
    c ≠ .none ∧ ∃ tf ff, split t = .ok tf ∧ split f = .ok ff ∧ Dict.Nodup tf ∧ Dict.Nodup ff ∧ Dict.Nodup fd ∧
      fd = sideEntries c t tf ++ sideEntries (.op .ulnot [c]) f ff := by
  have nd : ∀ t fd, split t = .ok fd → Dict.Nodup fd ∧
      ∀ c a b, t = .branch c a b → c ≠ .none ∧ ∃ tf ff, split a = .ok tf ∧ split b = .ok ff ∧ Dict.Nodup tf ∧
        Dict.Nodup ff ∧ fd = sideEntries c a tf ++ sideEntries (.op .ulnot [c]) b ff := by
    intro t
    induction t using DF.ind with
    | branch c t f _ iht ihf =>
      intro fd h
      simp only [split, bind_ok, ok_inj] at h
      obtain ⟨tf, htf, ff, hff, fc, hfc, h⟩ := h
      have ht := (iht tf htf).1
      have hf := (ihf ff hff).1
      simp only [DF.mkOp] at hfc
      split at hfc
      · simp at hfc
      · rename_i hno
        simp only [ok_inj] at hfc
        subst hfc
        have e1 : addSide c t tf [] = sideEntries c t tf := by
          rw [addSide_eq ht (by simp)]; simp
        rw [e1, addSide_eq hf] at h
        · subst h
          constructor
          · unfold Dict.Nodup
            rw [List.map_append, List.nodup_append]
            refine ⟨sideEntries_nodup ht, sideEntries_nodup hf, ?_⟩
            intro k hk k' hk' e
            obtain ⟨p, hp, rfl⟩ := List.mem_map.mp hk
            obtain ⟨p', hp', rfl⟩ := List.mem_map.mp hk'
            obtain ⟨l, hl⟩ := sideEntries_key p hp
            obtain ⟨l', hl'⟩ := sideEntries_key p' hp'
            rw [hl, hl'] at e
            simp only [List.cons.injEq] at e
            exact not_self c e.1
          · intro c' a b e
            simp only [DF.branch.injEq] at e
            obtain ⟨rfl, rfl, rfl⟩ := e
            exact ⟨fun e => hno (by simp [e]), tf, ff, htf, hff, ht, hf, rfl⟩
        · intro p hp k e
          obtain ⟨l, hl⟩ := sideEntries_key p hp
          rw [hl] at e
          simp only [List.cons.injEq] at e
          exact not_self c e.1
    | _ => intro fd h; simp [split] at h; subst h; exact ⟨by simp [Dict.Nodup], by simp⟩
  obtain ⟨hnd, h2⟩ := nd _ _ h
  obtain ⟨hc, tf, ff, h1, h3, h4, h5, h6⟩ := h2 c t f rfl
  exact ⟨hc, tf, ff, h1, h3, h4, h5, hnd, h6⟩

theorem split_empty {t : DF} {fd : FuncDict} (h : split t = .ok fd) (he : fd = []) : ¬ HasLeaf t ∨ ∀ c a b, t ≠ .branch c a b := by
  subst he
  induction t using DF.ind with
  | branch c t f _ iht ihf =>
    left
    obtain ⟨_, tf, ff, htf, hff, _, _, _, he⟩ := split_branch h
    have he := he.symm
    simp only [List.append_eq_nil_iff] at he
    have side : ∀ {c s : DF} {fs : FuncDict}, sideEntries c s fs = [] → fs = [] ∧ s = .none := by
      intro c s fs h
      unfold sideEntries at h
      split at h
      · split at h
        · rename_i a b; exact ⟨a, b⟩
        · simp at h
      · rename_i hne; simp at h; exact absurd h hne
    have h1 := side he.1
    have h2 := side he.2
    rw [h1.2, h2.2]
    simp [HasLeaf]
  | _ => right; intro c a b; simp

theorem holds_not {ρ : Env} {c : DF} : Holds ρ (.op .ulnot [c]) ↔ ∃ x, sem ρ c = some x ∧ x.1 = 0 := by
  unfold Holds
  simp only [sem, semList]
  cases h : sem ρ c with
  | none => simp
  | some x =>
    by_cases hx : x.1 = 0
    · simp [opSem, b2i, hx]
    · simp [opSem, b2i, hx]

theorem selectLeaf_hollow {ρ : Env} {t : DF} (h : ¬ HasLeaf t) : selectLeaf ρ t = none := by
  induction t using DF.ind with
  | branch c t f _ iht ihf =>
    simp only [HasLeaf, not_or] at h
    simp only [selectLeaf, iht h.1, ihf h.2]
    cases sem ρ c with
    | none => rfl
    | some x => simp
  | none => rfl
  | _ => simp [HasLeaf] at h

/-- One side of a conditional. -/
theorem side_iff {ρ : Env} {c s : DF} {fs : FuncDict} (hfs : split s = .ok fs) (hh : NoHollow s)
    (ih : ∀ c a b, s = .branch c a b → ∀ g, (∃ cs, (cs, g) ∈ fs ∧ AllHold ρ cs) ↔ selectLeaf ρ s = some g)
    (g : DF) : (∃ cs, (cs, g) ∈ sideEntries c s fs ∧ AllHold ρ cs) ↔ Holds ρ c ∧ selectLeaf ρ s = some g := by
  by_cases hb : ∃ c a b, s = .branch c a b
  · obtain ⟨c', a, b, rfl⟩ := hb
    have hne : fs ≠ [] := by
      intro he
      rcases split_empty hfs he with h | h
      · exact h hh.1
      · exact h _ _ _ rfl
    rw [← ih c' a b rfl]
    unfold sideEntries
    rw [if_neg hne]
    constructor
    · rintro ⟨cs, hm, ha⟩
      obtain ⟨p, hp, e⟩ := List.mem_map.mp hm
      simp only [Prod.mk.injEq] at e
      obtain ⟨rfl, rfl⟩ := e
      exact ⟨ha c (by simp), p.1, hp, fun x hx => ha x (by simp [hx])⟩
    · rintro ⟨hc, cs, hm, ha⟩
      refine ⟨c :: cs, List.mem_map.mpr ⟨_, hm, rfl⟩, ?_⟩
      intro x hx
      rcases List.mem_cons.mp hx with rfl | hx
      · exact hc
      · exact ha x hx
  · have hfs' : fs = [] := by
      cases s <;> first | (exact absurd ⟨_, _, _, rfl⟩ hb) | (simp [split] at hfs; exact hfs)
    unfold sideEntries
    rw [if_pos hfs']
    by_cases hs : s = .none
    · subst hs; simp [selectLeaf]
    · have hsel : selectLeaf ρ s = some s := by
        cases s <;> first | (exact absurd ⟨_, _, _, rfl⟩ hb) | (exact absurd rfl hs) | rfl
      rw [hsel, if_neg hs]
      simp [AllHold]
      tauto

/-- **C18** For every conditional tree in which each conditional has some leaf, and every valuation: the tree
selects leaf `g` exactly when some condition list of `split(tree)` with function `g` holds entirely. -/
theorem C18_split_selects (ρ : Env) (c t f : DF) (fd : FuncDict) (hh : NoHollow (.branch c t f))
    (h : split (.branch c t f) = .ok fd) (g : DF) :
    (∃ cs, (cs, g) ∈ fd ∧ AllHold ρ cs) ↔ selectLeaf ρ (.branch c t f) = some g := by
  have main : ∀ s : DF, NoHollow s → ∀ fd, split s = .ok fd → ∀ c a b, s = .branch c a b →
      ∀ g, (∃ cs, (cs, g) ∈ fd ∧ AllHold ρ cs) ↔ selectLeaf ρ s = some g := by
    intro s
    induction s using DF.ind with
    | branch c t f _ iht ihf =>
      intro hh fd h c' a b e g
      simp only [NoHollow] at hh
      obtain ⟨_, tf, ff, htf, hff, _, _, _, rfl⟩ := split_branch h
      have h1 := side_iff (ρ := ρ) (c := c) htf hh.2.1 (fun c a b e => iht hh.2.1 tf htf c a b e) g
      have h2 := side_iff (ρ := ρ) (c := .op .ulnot [c]) hff hh.2.2 (fun c a b e => ihf hh.2.2 ff hff c a b e) g
      have h3 : (∃ cs, (cs, g) ∈ sideEntries c t tf ++ sideEntries (.op .ulnot [c]) f ff ∧ AllHold ρ cs) ↔
          (∃ cs, (cs, g) ∈ sideEntries c t tf ∧ AllHold ρ cs) ∨
          (∃ cs, (cs, g) ∈ sideEntries (.op .ulnot [c]) f ff ∧ AllHold ρ cs) := by
        constructor
        · rintro ⟨cs, hm, ha⟩
          rcases List.mem_append.mp hm with hm | hm
          · exact .inl ⟨cs, hm, ha⟩
          · exact .inr ⟨cs, hm, ha⟩
        · rintro (⟨cs, hm, ha⟩ | ⟨cs, hm, ha⟩)
          · exact ⟨cs, List.mem_append.mpr (.inl hm), ha⟩
          · exact ⟨cs, List.mem_append.mpr (.inr hm), ha⟩
      rw [h3, h1, h2, holds_not]
      simp only [selectLeaf, Holds]
      cases hs : sem ρ c with
      | none => simp
      | some x =>
        by_cases hx : x.1 = 0 <;> simp [hx]
    | _ => intro _ fd _ c a b e; simp at e
  exact main _ hh fd h c t f rfl g

/-- **C18** Under every valuation at most one condition list of `split(tree)` holds entirely. -/
theorem C18_split_exclusive (ρ : Env) (t : DF) (fd : FuncDict) (h : split t = .ok fd) (p q : List DF × DF)
    (hp : p ∈ fd) (hq : q ∈ fd) (h1 : AllHold ρ p.1) (h2 : AllHold ρ q.1) : p = q := by
  induction t using DF.ind generalizing fd p q with
  | branch c t f _ iht ihf =>
    obtain ⟨_, tf, ff, htf, hff, _, _, _, rfl⟩ := split_branch h
    have side : ∀ {c s : DF} {fs : FuncDict} (_ : ∀ p q, p ∈ fs → q ∈ fs → AllHold ρ p.1 → AllHold ρ q.1 → p = q)
        (p q), p ∈ sideEntries c s fs → q ∈ sideEntries c s fs → AllHold ρ p.1 → AllHold ρ q.1 → p = q := by
      intro c s fs ih p q hp hq h1 h2
      unfold sideEntries at hp hq
      split at hp
      · rename_i he
        rw [if_pos he] at hq
        split at hp
        · simp at hp
        · rename_i hs
          rw [if_neg hs] at hq
          simp at hp hq; rw [hp, hq]
      · rename_i he
        rw [if_neg he] at hq
        obtain ⟨p', hp', rfl⟩ := List.mem_map.mp hp
        obtain ⟨q', hq', rfl⟩ := List.mem_map.mp hq
        rw [ih p' q' hp' hq' (fun x hx => h1 x (by simp [hx])) (fun x hx => h2 x (by simp [hx]))]
    have hd : ∀ {p : List DF × DF} {c s fs}, p ∈ sideEntries c s fs → AllHold ρ p.1 → Holds ρ c := by
      intro p c s fs hp ha
      obtain ⟨k, hk⟩ := sideEntries_key p hp
      exact ha c (by rw [hk]; simp)
    have excl : ¬ (Holds ρ c ∧ Holds ρ (.op .ulnot [c])) := by
      rw [holds_not]
      rintro ⟨⟨x, hx, hx1⟩, y, hy, hy1⟩
      rw [hx] at hy; simp at hy; subst hy; exact hx1 hy1
    rcases List.mem_append.mp hp with hp | hp <;> rcases List.mem_append.mp hq with hq | hq
    · exact side (fun p q a b c d => iht tf htf p q a b c d) p q hp hq h1 h2
    · exact absurd ⟨hd hp h1, hd hq h2⟩ excl
    · exact absurd ⟨hd hq h2, hd hp h1⟩ excl
    · exact side (fun p q a b c d => ihf ff hff p q a b c d) p q hp hq h1 h2
  | _ => simp [split] at h; subst h; simp at hp

/-- Every condition of a conditional tree is present. -/
def CondsPresent : DF → Prop
  | .branch c t f => c ≠ .none ∧ CondsPresent t ∧ CondsPresent f
  | _ => True

/-- **C18** (totality) `split` succeeds exactly on trees whose conditions are all present. -/
theorem C18_split_total (t : DF) : (∃ fd, split t = .ok fd) ↔ CondsPresent t := by
  induction t using DF.ind with
  | branch c t f _ iht ihf =>
    simp only [CondsPresent, ← iht, ← ihf]
    constructor
    · rintro ⟨fd, h⟩
      obtain ⟨hc, tf, ff, htf, hff, _⟩ := split_branch h
      exact ⟨hc, ⟨tf, htf⟩, ff, hff⟩
    · rintro ⟨hc, ⟨tf, htf⟩, ff, hff⟩
      have : DF.mkOp .ulnot [c] = .ok (.op .ulnot [c]) := by simp [DF.mkOp, Ne.symm hc]
      simp only [split, htf, hff, this]
      exact ⟨_, rfl⟩
  | _ => simp [split, CondsPresent]

/-- A conditional without any leaf is reported as if it were a leaf: the proviso of `C18_split_selects` is needed.
(`s ? (d ? <missing> : <missing>) : a`.) -/
theorem C18_hollow_false : ∃ (ρ : Env) (c t f : DF) (fd : FuncDict) (g : DF), split (.branch c t f) = .ok fd ∧
    (∃ cs, (cs, g) ∈ fd ∧ AllHold ρ cs) ∧ selectLeaf ρ (.branch c t f) = none := by
  refine ⟨⟨fun _ => some (1, 1), fun _ => none, 32⟩, .term [⟨['s'], .signal, none⟩],
    .branch (.term [⟨['d'], .signal, none⟩]) .none .none, .term [⟨['a'], .signal, none⟩], _,
    .branch (.term [⟨['d'], .signal, none⟩]) .none .none, rfl, ?_, ?_⟩
  · refine ⟨[.term [⟨['s'], .signal, none⟩]], by decide, ?_⟩
    intro c hc; simp at hc; subst hc; exact ⟨(1, 1), rfl, by simp⟩
  · decide

/-- Non-vacuity: `s ? (d ? a : <missing>) : b`. -/
def c18t : DF := .branch (.term [⟨['s'], .signal, none⟩])
  (.branch (.term [⟨['d'], .signal, none⟩]) (.term [⟨['a'], .signal, none⟩]) .none) (.term [⟨['b'], .signal, none⟩])
example : NoHollow c18t ∧ split c18t = .ok
    [([.term [⟨['s'], .signal, none⟩], .term [⟨['d'], .signal, none⟩]], .term [⟨['a'], .signal, none⟩]),
     ([.op .ulnot [.term [⟨['s'], .signal, none⟩]]], .term [⟨['b'], .signal, none⟩])] :=
  ⟨by simp [c18t, NoHollow, HasLeaf], by decide⟩

/-! ### C19 -/

theorem filterLoop_mem {name cond} {fd ret r : FuncDict} (hn : Dict.Nodup (ret ++ fd))
    (h : filterLoop name cond fd ret = .ok r) :
    (∀ p, p ∈ r ↔ p ∈ ret ∨ (p ∈ fd ∧ cond name p.2 = .ok true)) ∧ (∀ p ∈ fd, ∃ b, cond name p.2 = .ok b) ∧
      Dict.Nodup r := by
  induction fd generalizing ret with
  | nil => simp [filterLoop] at h; subst h; simpa using hn
  | cons q fd ih =>
    obtain ⟨k, f⟩ := q
    simp only [filterLoop, bind_ok] at h
    obtain ⟨b, hb, h⟩ := h
    have hfresh : ∀ p ∈ ret, p.1 ≠ k := by
      intro p hp e
      simp only [Dict.Nodup, List.map_append, List.map_cons, List.nodup_append] at hn
      exact hn.2.2 p.1 (List.mem_map.mpr ⟨p, hp, rfl⟩) k (by simp) e
    cases b with
    | false =>
      simp only [Bool.false_eq_true, if_false] at h
      obtain ⟨h1, h2, h3⟩ := ih (by
        simp only [Dict.Nodup, List.map_append, List.map_cons, List.nodup_append, List.nodup_cons] at hn ⊢
        refine ⟨hn.1, hn.2.1.2, fun a ha b hb => hn.2.2 a ha b (by simp [hb])⟩) h
      refine ⟨?_, ?_, h3⟩
      · intro p
        rw [h1]
        constructor
        · rintro (h | ⟨h, hc⟩)
          · exact .inl h
          · exact .inr ⟨by simp [h], hc⟩
        · rintro (h | ⟨h, hc⟩)
          · exact .inl h
          · rcases List.mem_cons.mp h with rfl | h
            · rw [hb] at hc; simp at hc
            · exact .inr ⟨h, hc⟩
      · intro p hp
        rcases List.mem_cons.mp hp with rfl | hp
        · exact ⟨_, hb⟩
        · exact h2 p hp
    | true =>
      simp only [if_true] at h
      rw [Dict.set_new hfresh] at h
      obtain ⟨h1, h2, h3⟩ := ih (by simpa using hn) h
      refine ⟨?_, ?_, h3⟩
      · intro p
        rw [h1]
        constructor
        · rintro (h | ⟨h, hc⟩)
          · rcases List.mem_append.mp h with h | h
            · exact .inl h
            · simp at h; subst h; exact .inr ⟨by simp, hb⟩
          · exact .inr ⟨by simp [h], hc⟩
        · rintro (h | ⟨h, hc⟩)
          · exact .inl (by simp [h])
          · rcases List.mem_cons.mp h with rfl | h
            · exact .inl (by simp)
            · exact .inr ⟨h, hc⟩
      · intro p hp
        rcases List.mem_cons.mp hp with rfl | hp
        · exact ⟨_, hb⟩
        · exact h2 p hp

/-- **C19** `filter` keeps exactly the entries whose function satisfies the condition. -/
theorem C19_filter_exact (fd r : FuncDict) (name : ScopeChain) (cond : ScopeChain → DF → Py Bool) (hn : Dict.Nodup fd)
    (h : filterFuncs fd name cond = .ok r) (p : List DF × DF) : p ∈ r ↔ p ∈ fd ∧ cond name p.2 = .ok true := by
  have := (filterLoop_mem (ret := []) (by simpa using hn) h).1 p
  simpa using this

/-- **C19** `filter` succeeds whenever the condition can be decided for every function. -/
theorem C19_filter_total (fd : FuncDict) (name : ScopeChain) (cond : ScopeChain → DF → Py Bool)
    (h : ∀ p ∈ fd, ∃ b, cond name p.2 = .ok b) : ∃ r, filterFuncs fd name cond = .ok r := by
  unfold filterFuncs
  generalize ([] : FuncDict) = ret
  induction fd generalizing ret with
  | nil => exact ⟨ret, rfl⟩
  | cons q fd ih =>
    obtain ⟨b, hb⟩ := h q (by simp)
    obtain ⟨r, hr⟩ := ih (fun p hp => h p (by simp [hp])) (if b then Dict.set ret q.1 q.2 else ret)
    exact ⟨r, by simp only [filterLoop, hb]; exact hr⟩

/-- **C19** The functions kept by `active_unmodify` are those that are the signal itself, and `active_modify` keeps
exactly the others. -/
theorem C19_modify_complement (fd m u : FuncDict) (name : ScopeChain) (hn : Dict.Nodup fd)
    (hm : filterFuncs fd name activeModify = .ok m) (hu : filterFuncs fd name activeUnmodify = .ok u)
    (p : List DF × DF) : (p ∈ u ↔ p ∈ fd ∧ p.2 = .term name) ∧ (p ∈ m ↔ p ∈ fd ∧ p.2 ≠ .term name) := by
  rw [C19_filter_exact fd u name _ hn hu, C19_filter_exact fd m name _ hn hm]
  obtain ⟨k, f⟩ := p
  cases f with
  | term n =>
    by_cases h : n = name <;> simp [activeModify, activeUnmodify, h]
  | _ => simp [activeModify, activeUnmodify]

/-- **C19** `active_constant` keeps exactly the integer constants that compare as asked. -/
theorem C19_constant_exact (op : CmpOp) (value : Int) (fd r : FuncDict) (name : ScopeChain) (hn : Dict.Nodup fd)
    (h : filterFuncs fd name (activeConstant op value) = .ok r) (p : List DF × DF) :
    p ∈ r ↔ p ∈ fd ∧ ∃ v w a b, p.2 = .ev (.int v) w a b ∧
      match op with
      | .lt => v < value | .le => v ≤ value | .gt => v > value | .ge => v ≥ value | .eq => v = value | .ne => v ≠ value := by
  rw [C19_filter_exact fd r name _ hn h]
  obtain ⟨k, f⟩ := p
  cases f with
  | ev v w a b =>
    cases v with
    | int v => cases op <;> simp [activeConstant, CmpOp.holds]
    | _ => simp [activeConstant]
  | _ => simp [activeConstant]

/-- **C18/C19** together: under every valuation some list of `filter(split(tree))` holds exactly when the leaf the
tree selects satisfies the condition. -/
theorem C19_filtered_split (ρ : Env) (c t f : DF) (fd r : FuncDict) (name : ScopeChain)
    (cond : ScopeChain → DF → Py Bool) (hh : NoHollow (.branch c t f)) (h : split (.branch c t f) = .ok fd)
    (hr : filterFuncs fd name cond = .ok r) (g : DF) :
    (∃ cs, (cs, g) ∈ r ∧ AllHold ρ cs) ↔ selectLeaf ρ (.branch c t f) = some g ∧ cond name g = .ok true := by
  rw [← C18_split_selects ρ c t f fd hh h g]
  obtain ⟨_, _, _, _, _, _, _, hnd, _⟩ := split_branch h
  simp only [C19_filter_exact fd r name cond hnd hr]
  constructor
  · rintro ⟨cs, ⟨h1, h2⟩, h3⟩; exact ⟨⟨cs, h1, h3⟩, h2⟩
  · rintro ⟨⟨cs, h1, h3⟩, h2⟩; exact ⟨cs, ⟨h1, h2⟩, h3⟩

/-- Non-vacuity: filtering `split(s ? (d ? a : <missing>) : b)`. -/
example : ∃ fd, split c18t = .ok fd ∧ Dict.Nodup fd ∧
    filterFuncs fd [⟨['b'], .signal, none⟩] activeModify =
      .ok [([.term [⟨['s'], .signal, none⟩], .term [⟨['d'], .signal, none⟩]], .term [⟨['a'], .signal, none⟩])] ∧
    filterFuncs fd [⟨['b'], .signal, none⟩] activeUnmodify =
      .ok [([.op .ulnot [.term [⟨['s'], .signal, none⟩]]], .term [⟨['b'], .signal, none⟩])] :=
  ⟨_, rfl, by unfold Dict.Nodup; decide, by decide, by decide⟩

/-! ### C46: reset conditions -/

theorem removeLoop_get {isReset : DF → Bool} (fd n : FuncDict) (k : List DF) :
    (fd.foldl (fun (n : FuncDict) p => n.set (removeResetCondlist isReset p.1) p.2) n).get? k =
      match (fd.filter (fun p => decide (removeResetCondlist isReset p.1 = k))).getLast? with
      | some p => some p.2
      | none => n.get? k := by
  induction fd generalizing n with
  | nil => simp
  | cons q fd ih =>
    simp only [List.foldl_cons, ih, List.filter_cons]
    by_cases h : removeResetCondlist isReset q.1 = k
    · simp only [h, decide_true, if_true]
      cases h2 : (fd.filter (fun p => decide (removeResetCondlist isReset p.1 = k))).getLast? with
      | none =>
        rw [List.getLast?_eq_none_iff] at h2
        simp [h2, Dict.get?_set]
      | some p =>
        simp [List.getLast?_cons, h2]
    · simp [h, Dict.get?_set]

theorem Dict.get?_del {κ α : Type} [DecidableEq κ] (d : Dict κ α) (k k' : κ) :
    (d.del k).get? k' = if k = k' then none else d.get? k' := by
  induction d with
  | nil => simp [Dict.del, Dict.get?_nil]
  | cons p d ih =>
    unfold Dict.del at *
    simp only [List.filter_cons]
    by_cases h : p.1 = k
    · simp only [h, ne_eq, not_true_eq_false, decide_false, Bool.false_eq_true, if_false, ih, Dict.get?_cons]
      by_cases h2 : k = k' <;> simp [h2]
    · simp only [ne_eq, h, not_false_eq_true, decide_true, if_true, Dict.get?_cons, ih]
      by_cases h2 : p.1 = k'
      · have : k ≠ k' := fun e => h (by rw [h2, e])
        simp [h2, this]
      · simp [h2]

/-- **C46** A nonempty condition list is a key of the result exactly when it is what remains of some entry after its
reset conditions are dropped, and it carries the function of the last such entry. -/
theorem C46_reset_removal (isReset : DF → Bool) (fd : FuncDict) (k : List DF) (hk : k ≠ []) :
    (removeResetCondition isReset fd).get? k =
      ((fd.filter (fun p => decide (p.1.filter (fun c => !isReset c) = k))).getLast?).map (·.2) := by
  have h := removeLoop_get (isReset := isReset) fd [] k
  have h' : (fd.foldl (fun (n : FuncDict) p => n.set (removeResetCondlist isReset p.1) p.2) ([] : FuncDict)).get? k =
      ((fd.filter (fun p => decide (p.1.filter (fun c => !isReset c) = k))).getLast?).map (·.2) := by
    rw [h]
    have e : (fd.filter (fun p => decide (removeResetCondlist isReset p.1 = k))).getLast? =
      (fd.filter (fun p => decide (p.1.filter (fun c => !isReset c) = k))).getLast? := rfl
    rw [e]
    generalize (fd.filter (fun p => decide (p.1.filter (fun c => !isReset c) = k))).getLast? = o
    cases o <;> rfl
  unfold removeResetCondition
  simp only
  split
  · rw [Dict.get?_del, if_neg (Ne.symm hk), h']
  · exact h'

theorem removeLoop_nodup {isReset : DF → Bool} (fd n : FuncDict) (hn : Dict.Nodup n) :
    Dict.Nodup (fd.foldl (fun (n : FuncDict) p => n.set (removeResetCondlist isReset p.1) p.2) n) := by
  induction fd generalizing n with
  | nil => simpa using hn
  | cons q fd ih => simp only [List.foldl_cons]; exact ih _ (Dict.nodup_set hn _ _)

theorem Dict.get?_isSome_iff {κ α : Type} [DecidableEq κ] {d : Dict κ α} {k : κ} :
    (d.get? k).isSome ↔ k ∈ d.map (·.1) := by
  induction d with
  | nil => simp [Dict.get?_nil]
  | cons p d ih =>
    rw [Dict.get?_cons]
    by_cases h : p.1 = k
    · simp [h]
    · simp only [h, if_false, ih, List.map_cons, List.mem_cons]
      constructor
      · exact .inr
      · rintro (e | e)
        · exact absurd e.symm h
        · exact e

theorem removeLoop_keys {isReset : DF → Bool} (fd : FuncDict) (k : List DF) :
    k ∈ (fd.foldl (fun (n : FuncDict) p => n.set (removeResetCondlist isReset p.1) p.2) ([] : FuncDict)).map (·.1) ↔
      ∃ p ∈ fd, removeResetCondlist isReset p.1 = k := by
  rw [← Dict.get?_isSome_iff, removeLoop_get]
  cases h : (fd.filter (fun p => decide (removeResetCondlist isReset p.1 = k))).getLast? with
  | none =>
    rw [List.getLast?_eq_none_iff, List.filter_eq_nil_iff] at h
    simp only [Dict.get?_nil, Option.isSome_none, Bool.false_eq_true, false_iff, not_exists, not_and]
    intro p hp; simpa using h p hp
  | some p =>
    have hp := List.mem_of_getLast? h
    simp only [List.mem_filter, decide_eq_true_eq] at hp
    simp only [Option.isSome_some, true_iff]
    exact ⟨p, hp⟩

/-- **C46** The unconditional entry remains exactly when every entry consists of reset conditions only. -/
theorem C46_unconditional_entry (isReset : DF → Bool) (fd : FuncDict) :
    (removeResetCondition isReset fd).get? [] =
      if ∀ p ∈ fd, p.1.filter (fun c => !isReset c) = [] then fd.getLast?.map (·.2) else none := by
  have hg := removeLoop_get (isReset := isReset) fd [] []
  have hk := removeLoop_keys (isReset := isReset) fd
  have hnd := removeLoop_nodup (isReset := isReset) fd [] (by simp [Dict.Nodup])
  unfold removeResetCondition
  simp only
  generalize fd.foldl (fun (n : FuncDict) p => n.set (removeResetCondlist isReset p.1) p.2) ([] : FuncDict) = n at *
  by_cases hall : ∀ p ∈ fd, p.1.filter (fun c => !isReset c) = []
  · rw [if_pos hall]
    have hf : fd.filter (fun p => decide (removeResetCondlist isReset p.1 = [])) = fd := by
      rw [List.filter_eq_self]; intro p hp; simpa [removeResetCondlist] using hall p hp
    rw [hf] at hg
    have hlen : ¬ n.length > 1 := by
      intro hl
      match n, hl, hnd, hk with
      | [], hl, _, _ => simp at hl
      | [_], hl, _, _ => simp at hl
      | a :: b :: r, _, hnd, hk =>
        obtain ⟨p, hp, e1⟩ := (hk a.1).mp (by simp)
        obtain ⟨q, hq, e2⟩ := (hk b.1).mp (by simp)
        have h1 : a.1 = [] := by rw [← e1]; exact hall p hp
        have h2 : b.1 = [] := by rw [← e2]; exact hall q hq
        simp [Dict.Nodup, h1, h2] at hnd
    simp only [hlen, decide_false, Bool.and_false, Bool.false_eq_true, if_false, hg]
    cases fd.getLast? <;> rfl
  · rw [if_neg hall]
    split
    · rw [Dict.get?_del, if_pos rfl]
    · rename_i h
      simp only [Bool.and_eq_true, decide_eq_true_eq, not_and] at h
      cases hgn : n.get? [] with
      | none => rfl
      | some v =>
        exfalso
        have hhas : n.has [] = true := by rw [Dict.has_eq, hgn]; rfl
        have := h hhas
        push Not at hall
        obtain ⟨p, hp, hne⟩ := hall
        have h1 := (hk _).mpr ⟨p, hp, rfl⟩
        have h2 : [] ∈ n.map (·.1) := Dict.get?_isSome_iff.mp (by rw [hgn]; rfl)
        match n, this, h1, h2 with
        | [], _, h1, _ => simp at h1
        | [a], _, h1, h2 =>
          simp at h1 h2
          exact hne (h1.trans h2)
        | a :: b :: r, h3, _, _ => simp at h3

/-- **C46** No condition of the result is a reset condition. -/
theorem C46_no_reset_left (isReset : DF → Bool) (fd : FuncDict) (p : List DF × DF)
    (hp : p ∈ removeResetCondition isReset fd) : ∀ c ∈ p.1, isReset c = false := by
  have gen : ∀ (fd n : FuncDict), (∀ p ∈ n, ∀ c ∈ p.1, isReset c = false) →
      ∀ p ∈ fd.foldl (fun (n : FuncDict) p => n.set (removeResetCondlist isReset p.1) p.2) n, ∀ c ∈ p.1, isReset c = false := by
    intro fd
    induction fd with
    | nil => intro n h; simpa using h
    | cons q fd ih =>
      intro n h
      simp only [List.foldl_cons]
      apply ih
      intro p hp
      have : p ∈ n ∨ p = (removeResetCondlist isReset q.1, q.2) := by
        clear ih h
        induction n with
        | nil => simp [Dict.set] at hp; exact .inr hp
        | cons a n ih2 =>
          obtain ⟨a1, a2⟩ := a
          simp only [Dict.set] at hp
          split at hp
          · rcases List.mem_cons.mp hp with rfl | hp
            · exact .inr rfl
            · exact .inl (by simp [hp])
          · rcases List.mem_cons.mp hp with rfl | hp
            · exact .inl (by simp)
            · rcases ih2 hp with h | h
              · exact .inl (by simp [h])
              · exact .inr h
      rcases this with h1 | rfl
      · exact h p h1
      · intro c hc
        simp [removeResetCondlist] at hc
        exact hc.2
  have hp' : p ∈ fd.foldl (fun (n : FuncDict) p => n.set (removeResetCondlist isReset p.1) p.2) ([] : FuncDict) := by
    unfold removeResetCondition at hp
    simp only at hp
    split at hp
    · exact (List.mem_filter.mp hp).1
    · exact hp
  exact gen fd [] (by simp) p hp'

/-- Non-vacuity: of `rst ? 0 : (!rst, s) ? 1`, what remains is `s ↦ 1`. -/
example : removeResetCondition (fun c => decide (c = .term [⟨['r'], .signal, none⟩] ∨
      c = .op .ulnot [.term [⟨['r'], .signal, none⟩]]))
    [([.term [⟨['r'], .signal, none⟩]], .intc ['0']),
     ([.op .ulnot [.term [⟨['r'], .signal, none⟩]], .term [⟨['s'], .signal, none⟩]], .intc ['1'])] =
    [([.term [⟨['s'], .signal, none⟩]], .intc ['1'])] := by decide

end Pyv
