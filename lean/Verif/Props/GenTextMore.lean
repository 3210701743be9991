import Verif.Props.GenTextProps
/-
  C84, continued: the text of the dataflow that `generateCode` selects; the texts that are not read back.
-/
namespace Pyv

/-! ## The selected dataflow -/

/-- The dictionaries have no key twice, and the declarations are those of the design. -/
structure DiscOK (S : MergeEnv) (d : Discretion) : Prop where
  terms : d.terms.Nodup
  assign : d.assign.Nodup
  own : ∀ y t, d.terms.get? y = some t → S.terms.get? y = some t

theorem get_of_mem {κ α : Type} [DecidableEq κ] {d : Dict κ α} (hd : d.Nodup) {k : κ} {v : α} (h : (k, v) ∈ d) : d.get? k = some v := by
  induction d with
  | nil => simp at h
  | cons p d ih =>
    obtain ⟨k', v'⟩ := p
    simp only [Dict.Nodup, List.map_cons, List.nodup_cons] at hd
    rw [Dict.get?_cons]
    rcases List.mem_cons.mp h with e | h
    · cases e; simp
    · have : k' ≠ k := by
        rintro rfl
        exact hd.1 (List.mem_map.mpr ⟨_, h, rfl⟩)
      rw [if_neg this]
      exact ih hd.2 h

theorem discTerms_some (S : MergeEnv) : ∀ (ns : List ScopeChain) (d : Dict ScopeChain Term), (∀ n ∈ ns, ∃ t, S.terms.get? n = some t) →
    d.Nodup → ∃ d', S.discTerms ns d = .ok d' ∧ d'.Nodup := by
  intro ns
  induction ns with
  | nil => intro d _ hd; exact ⟨d, rfl, hd⟩
  | cons n ns ih =>
    intro d h hd
    obtain ⟨t, ht⟩ := h n (by simp)
    simp only [MergeEnv.discTerms, ht]
    split
    · exact ih _ (fun m hm => h m (by simp [hm])) hd
    · exact ih _ (fun m hm => h m (by simp [hm])) (Dict.nodup_set hd n t)

theorem discBind_some (S : MergeEnv) (d : Discretion) (l : ScopeChain) (r : Bind) (hd : DiscOK S d)
    (h : ∃ t, S.terms.get? l = some t ∧ .wire ∈ t.types) : ∃ d', S.discBind d l r = .ok d' ∧ DiscOK S d' := by
  obtain ⟨t, ht, hw⟩ := h
  have hw' : t.types.contains .wire = true := by simpa using hw
  simp only [MergeEnv.discBind, MergeEnv.assignType, ht, hw', if_true, ok_bind]
  split
  · exact ⟨_, rfl, hd.terms, Dict.nodup_set hd.assign _ _, hd.own⟩
  · refine ⟨_, rfl, Dict.nodup_set hd.terms _ _, Dict.nodup_set hd.assign _ _, ?_⟩
    intro y t' hy
    simp only at hy
    rw [Dict.get?_set] at hy
    split at hy
    · next e => subst e; cases hy; exact ht
    · exact hd.own y t' hy

theorem discBinds_some (S : MergeEnv) (l : ScopeChain) : ∀ (rs : List Bind) (d : Discretion), DiscOK S d →
    (rs ≠ [] → ∃ t, S.terms.get? l = some t ∧ .wire ∈ t.types) → ∃ d', S.discBinds l rs d = .ok d' ∧ DiscOK S d' := by
  intro rs
  induction rs with
  | nil => intro d hd _; exact ⟨d, rfl, hd⟩
  | cons r rs ih =>
    intro d hd h
    obtain ⟨d1, h1, h2⟩ := discBind_some S d l r hd (h (by simp))
    simp only [MergeEnv.discBinds, h1, ok_bind]
    exact ih d1 h2 (fun _ => h (by simp))

theorem discAll_some (S : MergeEnv) : ∀ (bs : Dict ScopeChain (List Bind)) (d : Discretion), DiscOK S d →
    (∀ y rs, (y, rs) ∈ bs → rs ≠ [] → ∃ t, S.terms.get? y = some t ∧ .wire ∈ t.types) → ∃ d', S.discAll bs d = .ok d' ∧ DiscOK S d' := by
  intro bs
  induction bs with
  | nil => intro d hd _; exact ⟨d, rfl, hd⟩
  | cons p bs ih =>
    obtain ⟨l, rs⟩ := p
    intro d hd h
    obtain ⟨d1, h1, h2⟩ := discBinds_some S l rs d hd (h l rs (by simp))
    simp only [MergeEnv.discAll, h1, ok_bind]
    exact ih d1 h2 (fun y rs hy => h y rs (by simp [hy]))

/-- The classification returns if all names are declared and every signal assigned is a wire. -/
theorem discretion_some (S : MergeEnv) (binds : Dict ScopeChain (List Bind)) (names : List ScopeChain)
    (hn : ∀ n ∈ names, ∃ t, S.terms.get? n = some t)
    (hb : ∀ y rs, (y, rs) ∈ binds → rs ≠ [] → ∃ t, S.terms.get? y = some t ∧ .wire ∈ t.types) :
    ∃ d, S.discretion binds names = .ok d ∧ DiscOK S d := by
  obtain ⟨ts, h1, h2⟩ := discTerms_some S names [] hn (by simp [Dict.Nodup])
  simp only [MergeEnv.discretion, h1, ok_bind]
  exact discAll_some S binds _ ⟨h2, by simp [Dict.Nodup], (discTerms_ok S names [] ts (by simp [Dict.get?_nil]) h1).1⟩ hb

/-! ## Specification -/

/-- The part of a dataflow that is printed: some names and some assignments. -/
structure Part where
  names : List ScopeChain
  binds : Dict ScopeChain (List Bind)

/-- The whole design. -/
def MergeEnv.whole (S : MergeEnv) : Part := ⟨S.terms.map (·.1), S.rbinds⟩

/-- `P.Signal S k t`: the signal `k`, declared as `t`, is in the part: it is one of its names, and no parameter, or it is assigned. -/
def Part.Signal (P : Part) (S : MergeEnv) (k : ScopeChain) (t : Term) : Prop :=
  S.terms.get? k = some t ∧ (k ∈ P.names ∧ t.isParam = false ∨ ∃ rs, (k, rs) ∈ P.binds ∧ rs ≠ [])

/-- `P.Assigned b`: the assignment is in the part. -/
def Part.Assigned (P : Part) (b : Bind) : Prop := ∃ y rs, (y, rs) ∈ P.binds ∧ b ∈ rs

/-- The signal is the clock input or the reset input of the top module. -/
def CodeCfg.Sys (c : CodeCfg) (k : ScopeChain) (t : Term) : Prop := .input ∈ t.types ∧ c.Own k

/-- The signal is a port of the top module. -/
def IsPort (k : ScopeChain) (t : Term) : Prop := k.length = 2 ∧ (.input ∈ t.types ∨ .inout ∈ t.types ∨ .output ∈ t.types)

/-- A part of a dataflow whose text can be read: only wires are assigned, every signal has a declaration, every assignment
a text (`TermMeans`, `BindMeans`), and no dot occurs in a constant if dots are replaced. -/
structure Printable (S : MergeEnv) (c : CodeCfg) (P : Part) : Prop where
  names : c.Plain
  keys : ∀ k t, S.terms.get? k = some t → t.name = k
  declared : ∀ n ∈ P.names, ∃ t, S.terms.get? n = some t
  wires : ∀ y rs, (y, rs) ∈ P.binds → rs ≠ [] → ∃ t, S.terms.get? y = some t ∧ .wire ∈ t.types
  decls : ∀ k t, P.Signal S k t → ¬ c.Sys k t → ∃ i, TermMeans t i
  binds : ∀ b, P.Assigned b → ∃ i, BindMeans b i
  dots : c.flat = true → (∀ k t, P.Signal S k t → ¬ c.Sys k t → t.Dotless) ∧ ∀ b, P.Assigned b → b.Dotless

/-- What the module read back must be. -/
structure Faithful (S : MergeEnv) (c : CodeCfg) (P : Part) (m : ModuleDef) : Prop where
  name : m.name = c.modname
  params : m.params = []
  /-- The ports: the clock, the reset, the enable input, and the other ports of the top module. -/
  ports : ∀ p, p ∈ m.ports ↔ p = .port c.clock ∨ p = .port c.reset ∨ p = .port c.enable ∨
    ∃ k t, P.Signal S k t ∧ ¬ c.Sys k t ∧ IsPort k t ∧ p = .port k.tocode
  /-- The wires for clock and reset. -/
  system : ∀ i ∈ c.sysItems, i ∈ m.items
  /-- Every other signal is declared. -/
  decls : ∀ k t, P.Signal S k t → ¬ c.Sys k t → ∃ i ∈ m.items, TermMeans t i
  /-- Every assignment is there. -/
  binds : ∀ b, P.Assigned b → ∃ i ∈ m.items, BindMeans b i
  /-- An assignment of a whole signal outside of always blocks: the right side has the value of the tree. -/
  values : ∀ b, P.Assigned b → b.target = .term b.dest → b.always = none → b.param ≠ "parameter".toList → b.param ≠ "localparam".toList →
    ∃ r, .assign (.ident [] b.dest.tocode) r ∈ m.items ∧
      ∀ ρ res, ArraysOK ρ → (∀ n ∈ b.tree.terms, res n.tocode = some n) → ∀ v, sem ρ b.tree = some v → exVal ρ res r = some v
  /-- There is nothing else. -/
  only : ∀ i ∈ m.items, i ∈ c.sysItems ∨ (∃ k t, P.Signal S k t ∧ ¬ c.Sys k t ∧ TermMeans t i) ∨ ∃ b, P.Assigned b ∧ BindMeans b i

/-! ## C84 -/

theorem exists_forall₂ {α β : Type} {R : α → β → Prop} (l : List α) (h : ∀ a ∈ l, ∃ b, R a b) : ∃ l', List.Forall₂ R l l' := by
  induction l with
  | nil => exact ⟨[], .nil⟩
  | cons a l ih =>
    obtain ⟨b, hb⟩ := h a (by simp)
    obtain ⟨l', hl⟩ := ih (fun x hx => h x (by simp [hx]))
    exact ⟨b :: l', .cons hb hl⟩

/-- What the classification returns, as lists. -/
theorem discretion_lists {S : MergeEnv} {order : List Bind → List Bind} (hord : ∀ l x, x ∈ order l ↔ x ∈ l) {P : Part} {d : Discretion}
    (h : S.discretion P.binds P.names = .ok d) (hd : DiscOK S d) :
    (∀ k t, (k, t) ∈ d.terms ↔ P.Signal S k t) ∧ (∀ b, b ∈ d.all order ↔ P.Assigned b) := by
  obtain ⟨h1, h2, h3, h4, h5, h6⟩ := C61_classification_partial S P.binds P.names d h
  constructor
  · intro k t
    constructor
    · intro hm
      have hg := get_of_mem hd.terms hm
      have hs := hd.own _ _ hg
      refine ⟨hs, ?_⟩
      rcases (h6 k).mp ⟨t, hg⟩ with ⟨a, t', b, c⟩ | h
      · rw [hs] at b; cases b; exact .inl ⟨a, c⟩
      · exact .inr h
    · rintro ⟨hs, hx⟩
      obtain ⟨t', ht'⟩ := (h6 k).mpr (by
        rcases hx with ⟨a, b⟩ | h
        · exact .inl ⟨a, t, hs, b⟩
        · exact .inr h)
      have := hd.own _ _ ht'
      rw [hs] at this; cases this
      exact Dict.mem_of_get? ht'
  · intro b
    simp only [Discretion.all, h2, h3, h4, List.map_nil, List.nil_append, List.flatMap_nil, List.append_nil, List.mem_flatMap, hord]
    constructor
    · rintro ⟨⟨y, l⟩, hm, hb⟩
      obtain ⟨rs, a, b⟩ := (h1 y b).mp ⟨l, get_of_mem hd.assign hm, hb⟩
      exact ⟨y, rs, a, b⟩
    · rintro ⟨y, rs, a, b'⟩
      obtain ⟨l, hl, hb⟩ := (h1 y b).mpr ⟨rs, a, b'⟩
      exact ⟨(y, l), Dict.mem_of_get? hl, hb⟩

/-- A printable part is one whose text the theorem above is about. -/
theorem printable_means {S : MergeEnv} {c : CodeCfg} {order : List Bind → List Bind} (hord : ∀ l x, x ∈ order l ↔ x ∈ l) {P : Part}
    (h : Printable S c P) : ∃ d tis bis, S.discretion P.binds P.names = .ok d ∧ GenMeans S c order d tis bis ∧
      (∀ k t, (k, t) ∈ d.terms ↔ P.Signal S k t) ∧ (∀ b, b ∈ d.all order ↔ P.Assigned b) := by
  obtain ⟨d, hd, hok⟩ := discretion_some S P.binds P.names h.declared h.wires
  obtain ⟨h1, h2⟩ := discretion_lists hord hd hok
  have hsh : ∀ p ∈ c.shown d.terms, P.Signal S p.1 p.2 ∧ ¬ c.Sys p.1 p.2 := by
    intro p hp
    simp only [CodeCfg.shown, List.mem_filter, decide_eq_true_eq] at hp
    exact ⟨(h1 _ _).mp hp.1, hp.2⟩
  obtain ⟨tis, ht⟩ := exists_forall₂ (R := fun (p : ScopeChain × Term) i => TermMeans p.2 i) (c.shown d.terms)
    (fun p hp => h.decls p.1 p.2 (hsh p hp).1 (hsh p hp).2)
  obtain ⟨bis, hb⟩ := exists_forall₂ (R := BindMeans) (d.all order) (fun b hb => h.binds b ((h2 b).mp hb))
  refine ⟨d, tis, bis, hd, ⟨h.names, fun p hp => ((h1 _ _).mp hp).1, fun p hp => h.keys _ _ ((h1 _ _).mp hp).1, ht, hb, fun hf => ?_⟩, h1, h2⟩
  exact ⟨fun p hp => (h.dots hf).1 p.1 p.2 (hsh p hp).1 (hsh p hp).2, fun b hb => (h.dots hf).2 b ((h2 b).mp hb)⟩

theorem ports_mem {S : MergeEnv} {c : CodeCfg} {P : Part} {ts : List (ScopeChain × Term)} (h1 : ∀ k t, (k, t) ∈ ts ↔ P.Signal S k t) (x : Str) :
    x ∈ c.ports ts ↔ ∃ k t, P.Signal S k t ∧ ¬ c.Sys k t ∧ IsPort k t ∧ x = k.tocode := by
  simp only [CodeCfg.ports, CodeCfg.shown, List.mem_map, List.mem_filter, decide_eq_true_eq, Prod.exists, h1]
  constructor
  · rintro ⟨k, t, ⟨⟨a, b⟩, e⟩, rfl⟩; exact ⟨k, t, a, b, e, rfl⟩
  · rintro ⟨k, t, a, b, e, rfl⟩; exact ⟨k, t, ⟨⟨a, b⟩, e⟩, rfl⟩

/-- The text of a printable part with a port. -/
theorem part_faithful {S : MergeEnv} {c : CodeCfg} {order : List Bind → List Bind} (hord : ∀ l x, x ∈ order l ↔ x ∈ l) {P : Part}
    (h : Printable S c P) (hp : ∃ k t, P.Signal S k t ∧ ¬ c.Sys k t ∧ IsPort k t) :
    ∃ d text m, S.discretion P.binds P.names = .ok d ∧ S.genText c order d = .ok text ∧ SourceParsesTo text [m] ∧ Faithful S c P m := by
  obtain ⟨d, tis, bis, hd, hg, h1, h2⟩ := printable_means (order := order) hord h
  have hne : c.ports d.terms ≠ [] := by
    obtain ⟨k, t, a⟩ := hp
    exact List.ne_nil_of_mem ((ports_mem h1 k.tocode).mpr ⟨k, t, a.1, a.2.1, a.2.2, rfl⟩)
  obtain ⟨text, ht, hs⟩ := C84_reads_partial S c order d tis bis hg hne
  have hsh : ∀ p, p ∈ c.shown d.terms ↔ P.Signal S p.1 p.2 ∧ ¬ c.Sys p.1 p.2 := by
    intro p
    simp only [CodeCfg.shown, List.mem_filter, decide_eq_true_eq, ← h1]
    rfl
  refine ⟨d, text, _, hd, ht, hs, rfl, rfl, ?_, ?_, ?_, ?_, ?_, ?_⟩
  · intro p
    simp only [CodeCfg.allPorts, List.mem_map, List.mem_cons, ports_mem h1]
    constructor
    · rintro ⟨x, rfl | rfl | rfl | ⟨k, t, a, b, e, rfl⟩, rfl⟩
      · exact .inl rfl
      · exact .inr (.inl rfl)
      · exact .inr (.inr (.inl rfl))
      · exact .inr (.inr (.inr ⟨k, t, a, b, e, rfl⟩))
    · rintro (rfl | rfl | rfl | ⟨k, t, a, b, e, rfl⟩)
      · exact ⟨_, .inl rfl, rfl⟩
      · exact ⟨_, .inr (.inl rfl), rfl⟩
      · exact ⟨_, .inr (.inr (.inl rfl)), rfl⟩
      · exact ⟨_, .inr (.inr (.inr ⟨k, t, a, b, e, rfl⟩)), rfl⟩
  · intro i hi
    simp [hi]
  · intro k t hk hn
    obtain ⟨i, hi, hm⟩ := forall₂_mem_left hg.decls (k, t) ((hsh (k, t)).mpr ⟨hk, hn⟩)
    exact ⟨i, by simp [hi], hm⟩
  · intro b hb
    obtain ⟨i, hi, hm⟩ := forall₂_mem_left hg.binds b ((h2 b).mpr hb)
    exact ⟨i, by simp [hi], hm⟩
  · intro b hb hw ha hp1 hp2
    obtain ⟨i, hi, hm⟩ := forall₂_mem_left hg.binds b ((h2 b).mpr hb)
    cases hm with
    | param e hpar => exact absurd hpar hp1
    | localparam e hpar => exact absurd hpar hp2
    | assign D e _ _ _ hD _ he _ =>
      rw [hw] at hD
      cases hD
      exact ⟨e, by simp [hi], fun ρ res hA hr v hv => means_value hA _ _ he hr v hv⟩
    | comb D S a _ _ hal => rw [ha] at hal; cases hal
    | clocked D S a ck rs _ _ hal => rw [ha] at hal; cases hal
  · intro i hi
    simp only [List.mem_append] at hi
    rcases hi with hi | hi | hi
    · exact .inl hi
    · obtain ⟨p, hp, hm⟩ := forall₂_mem_right hg.decls i hi
      exact .inr (.inl ⟨p.1, p.2, ((hsh p).mp hp).1, ((hsh p).mp hp).2, hm⟩)
    · obtain ⟨b, hb, hm⟩ := forall₂_mem_right hg.binds i hi
      exact .inr (.inr ⟨b, (h2 b).mp hb, hm⟩)

/-- **C84** (part) The text of the whole dataflow of a design in which only wires are assigned and the top module has a port
besides the clock and the reset is read back by the parser as one module, which declares exactly the signals of the
design and makes exactly its assignments.  Missing: `C84_no_ports`, `C84_nonwire`, `C84_fails_float`, and what C78 excludes. -/
theorem C84_entire_partial (S : MergeEnv) (c : CodeCfg) (fuel : Nat) (orderN : List ScopeChain → List ScopeChain)
    (order : List Bind → List Bind) (hord : ∀ l x, x ∈ order l ↔ x ∈ l) (h : Printable S c S.whole)
    (hp : ∃ k t, S.whole.Signal S k t ∧ ¬ c.Sys k t ∧ IsPort k t) :
    ∃ text m, S.generateCode c fuel orderN order [] = .ok text ∧ SourceParsesTo text [m] ∧ Faithful S c S.whole m := by
  obtain ⟨d, text, m, h1, h2, h3, h4⟩ := part_faithful hord h hp
  refine ⟨text, m, ?_, h3, h4⟩
  have : S.getEntire = .ok d := h1
  simp only [MergeEnv.generateCode, if_true, this, ok_bind, h2]

/-- The part of the dataflow behind some signals: what C35 says it is. -/
structure Behind (S : SubsetEnv) (targets : List ScopeChain) (P : Part) : Prop where
  binds : ∀ b, P.Assigned b ↔ ∃ y, (∃ t ∈ targets, S.Reach t y) ∧ ∃ bs, S.merge.binds.get? y = some bs ∧ b ∈ bs
  names : ∀ x, x ∈ P.names ↔ ∃ t ∈ targets, ∃ y, S.Reach t y ∧ S.Reads y x

/-- **C84** (part) The same for the part of the dataflow behind some signals. -/
theorem C84_subset_partial (S : MergeEnv) (c : CodeCfg) (fuel : Nat) (orderN : List ScopeChain → List ScopeChain)
    (order : List Bind → List Bind) (hordN : ∀ l x, x ∈ orderN l ↔ x ∈ l) (hord : ∀ l x, x ∈ order l ↔ x ∈ l) (targets : List ScopeChain)
    (ht : targets ≠ []) (B : Dict ScopeChain (List Bind)) (N : List ScopeChain)
    (hr : (c.subsetEnv S orderN).getBindSourceSubset fuel targets = .ok (B, N)) (h : Printable S c ⟨orderN N, B⟩)
    (hp : ∃ k t, (⟨orderN N, B⟩ : Part).Signal S k t ∧ ¬ c.Sys k t ∧ IsPort k t) :
    Behind (c.subsetEnv S orderN) targets ⟨orderN N, B⟩ ∧
    ∃ text m, S.generateCode c fuel orderN order targets = .ok text ∧ SourceParsesTo text [m] ∧ Faithful S c ⟨orderN N, B⟩ m := by
  constructor
  · obtain ⟨h1, h2⟩ := C35_subset_exact (c.subsetEnv S orderN) hordN fuel targets B N hr
    obtain ⟨hB, -⟩ := targetLoop_ok (c.subsetEnv S orderN) hordN fuel targets ([], []) (B, N) (fun _ => False)
      (by simp [Dict.Nodup]) (by simp) (by simp) hr
    refine ⟨fun b => ?_, fun x => ?_⟩
    · constructor
      · rintro ⟨y, rs, a, b'⟩
        exact ⟨y, (h1 y b).mp ⟨rs, get_of_mem hB a, b'⟩⟩
      · rintro ⟨y, hy⟩
        obtain ⟨l, hl, hb⟩ := (h1 y b).mpr hy
        exact ⟨y, l, Dict.mem_of_get? hl, hb⟩
    · simp only [hordN]; exact h2 x
  · obtain ⟨d, text, m, h1, h2, h3, h4⟩ := part_faithful hord h hp
    refine ⟨text, m, ?_, h3, h4⟩
    have : (c.subsetEnv S orderN).getSubset fuel targets = .ok d := by
      simp only [SubsetEnv.getSubset, hr, ok_bind]
      exact h1
    simp only [MergeEnv.generateCode, if_neg ht, this, ok_bind, h2]

/-! ### What is not read back -/

/-- The header without its last two characters if there are no other ports: the comma stays. -/
theorem head_cut_nil (c : CodeCfg) : ∃ ws : Str, (∀ x ∈ ws, x = ' ' ∨ x = '\n') ∧
    (headText c []).take ((headText c []).length - 2) =
      "`default_nettype none\n".toList ++ ("module".toList ++ ' ' :: (c.modname ++ '(' :: '\n' ::
        (List.replicate c.indent ' ' ++ (c.clock ++ (", ".toList ++ (c.reset ++ (", ".toList ++ (c.enable ++ ',' :: ws)))))))) := by
  obtain ⟨W, hW, hn⟩ : ∃ W : Str, W = ' ' :: '\n' :: List.replicate c.indent ' ' ∧ 2 ≤ W.length := ⟨_, rfl, by simp⟩
  refine ⟨W.take (W.length - 2), ?_, ?_⟩
  · intro x hx
    have := List.mem_of_mem_take hx
    rw [hW] at this
    simp only [List.mem_cons, List.mem_replicate] at this
    rcases this with h | h | h
    · exact .inl h
    · exact .inr h
    · exact .inl h.2
  · have e : headText c [] = ("`default_nettype none\n".toList ++ ("module".toList ++ ' ' :: (c.modname ++ '(' :: '\n' ::
        (List.replicate c.indent ' ' ++ (c.clock ++ (", ".toList ++ (c.reset ++ (", ".toList ++ (c.enable ++ [',']))))))))) ++ W := by
      rw [hW]
      unfold headText
      rw [text_module, show "(".toList = ['('] from rfl, show ", ".toList = [',', ' '] from rfl]
      generalize "`default_nettype none\n".toList = A1
      generalize "module".toList = A2
      simp only [List.append_assoc, List.cons_append, List.nil_append, List.map_nil, List.flatten_nil, List.append_nil]
    have cut : ∀ A : Str, (A ++ W).take ((A ++ W).length - 2) = A ++ W.take (W.length - 2) := by
      intro A
      rw [List.length_append, Nat.add_sub_assoc hn, List.take_length_add_append]
    rw [e, cut]
    generalize "`default_nettype none\n".toList = A1
    generalize "module".toList = A2
    generalize ", ".toList = A3
    simp only [List.append_assoc, List.cons_append, List.nil_append]

/-- The text of a dataflow without other ports cannot be read. -/
theorem no_ports_unread {S : MergeEnv} {c : CodeCfg} {order : List Bind → List Bind} {d : Discretion} {tis bis : List MItem}
    (h : GenMeans S c order d tis bis) (hp : c.ports d.terms = []) :
    ∃ text, S.genText c order d = .ok text ∧ ¬ ∃ ms, SourceParsesTo text ms := by
  obtain ⟨cs, hr, ht⟩ := genText_parts h
  refine ⟨_, ht, ?_⟩
  obtain ⟨T, h1, -⟩ := items_read hr
  rw [hp]
  obtain ⟨ws, hw, e⟩ := head_cut_nil c
  have hl : Lx ((headText c []).take ((headText c []).length - 2) ++ (");\n\n".toList ++ (cs.flatten ++ "\nendmodule\n".toList)))
      (.kw "module".toList :: .id c.modname :: .p .lparen :: .id c.clock :: .p .comma :: .id c.reset :: .p .comma :: .id c.enable ::
        .p .comma :: .p .rparen :: .p .semicolon :: (T ++ [.kw "endmodule".toList])) := by
    have k1 := h1 _ _ lx_tail
    rw [e]
    generalize "\nendmodule\n".toList = E at *
    generalize Tok.kw "endmodule".toList = K at *
    have k2 : Lx (ws ++ ')' :: ';' :: '\n' :: '\n' :: (cs.flatten ++ E)) (.p .rparen :: .p .semicolon :: (T ++ [K])) :=
      Lx.ws _ hw (Lx.ch .rparen ')' rfl rfl (Lx.ch .semicolon ';' rfl rfl (Lx.nl (Lx.nl k1))))
    have k3 := name_lx h.names.enable (d := ',') (by decide) (Lx.ch .comma ',' rfl rfl k2)
    have k4 := Lx.nl (Lx.ws _ (replicate_sp c.indent) (comma_lx h.names.clock (comma_lx h.names.reset k3)))
    have k5 := directive_lx (lx_module (name_lx h.names.modname (d := '(') (by decide) (Lx.ch .lparen '(' rfl rfl k4)))
    rw [show ");\n\n".toList = [')', ';', '\n', '\n'] from rfl]
    generalize "`default_nettype none\n".toList = A1 at *
    generalize "module".toList = A2 at *
    generalize ", ".toList = A3 at *
    simp only [List.append_assoc, List.cons_append, List.nil_append] at k5 ⊢
    exact k5
  generalize T ++ [.kw "endmodule".toList] = R at hl
  rintro ⟨ms, ts, hlex, n, hn⟩
  rw [hl.toLex, Option.some.injEq] at hlex
  subst hlex
  have hs : MSt (at' [.defs []] (.kw "module".toList :: .id c.modname :: .p .lparen :: .id c.clock :: .p .comma :: .id c.reset :: .p .comma ::
      .id c.enable :: .p .comma :: .p .rparen :: .p .semicolon :: R))
      (at' (.plist [.port c.clock, .port c.reset, .port c.enable] :: .mod c.modname none :: [.defs []]) (.p .rparen :: .p .semicolon :: R)) :=
    .head rfl (.head rfl (.head rfl (.head rfl (.head rfl .refl))))
  have := hs.stuck rfl (fun ms h => by simp at h) n
  simp only [at'] at this
  rw [this] at hn
  cases hn

/-- **C84** (a defect) The text of a printable part of a dataflow without ports in the top module besides the clock and the
reset is rejected by the parser, for every such dataflow: a comma is left behind in the port list. -/
theorem C84_no_ports (S : MergeEnv) (c : CodeCfg) (fuel : Nat) (orderN : List ScopeChain → List ScopeChain)
    (order : List Bind → List Bind) (hord : ∀ l x, x ∈ order l ↔ x ∈ l) (h : Printable S c S.whole)
    (hp : ¬ ∃ k t, S.whole.Signal S k t ∧ ¬ c.Sys k t ∧ IsPort k t) :
    ∃ text, S.generateCode c fuel orderN order [] = .ok text ∧ ¬ ∃ ms, SourceParsesTo text ms := by
  obtain ⟨d, tis, bis, hd, hg, h1, -⟩ := printable_means (order := order) hord h
  have hne : c.ports d.terms = [] := by
    rw [List.eq_nil_iff_forall_not_mem]
    intro x hx
    obtain ⟨k, t, a, b, e, _⟩ := (ports_mem h1 x).mp hx
    exact hp ⟨k, t, a, b, e⟩
  obtain ⟨text, h2, h3⟩ := no_ports_unread hg hne
  refine ⟨text, ?_, h3⟩
  have : S.getEntire = .ok d := hd
  simp only [MergeEnv.generateCode, if_true, this, ok_bind, h2]

/-- **C84** (a defect) There is no text of a design with an assignment to a signal that is not of type `Wire`: a register,
an `output` or the input port of an instance. -/
theorem C84_nonwire (S : MergeEnv) (c : CodeCfg) (fuel : Nat) (orderN : List ScopeChain → List ScopeChain) (order : List Bind → List Bind)
    (hdecl : ∀ p ∈ S.rbinds, ∃ t, S.terms.get? p.1 = some t) (y : ScopeChain) (rs : List Bind) (hy : (y, rs) ∈ S.rbinds) (hrs : rs ≠ [])
    (t : Term) (ht : S.terms.get? y = some t) (hw : .wire ∉ t.types) : S.generateCode c fuel orderN order [] = .error .attribute := by
  have := C61_nonwire_raises S hdecl y rs hy hrs t ht hw
  simp only [MergeEnv.generateCode, if_true, this]
  rfl

/-- **C84** (a defect) With flat names (the default) no dot is left in the text, whatever it stood for. -/
theorem C84_flat_no_dots (S : MergeEnv) (c : CodeCfg) (fuel : Nat) (orderN : List ScopeChain → List ScopeChain) (order : List Bind → List Bind)
    (targets : List ScopeChain) (hf : c.flat = true) (text : Str) (h : S.generateCode c fuel orderN order targets = .ok text) : '.' ∉ text := by
  simp only [MergeEnv.generateCode, MergeEnv.genText, bind_ok, ok_inj, hf, if_true] at h
  obtain ⟨d, -, _, -, _, -, _, -, _, -, _, -, _, -, rfl⟩ := h
  intro hx
  obtain ⟨y, -, hy⟩ := List.mem_map.mp hx
  split at hy
  · exact absurd hy (by decide)
  · next hne => exact hne hy

/-! ### A design -/

/-- `module m(input [3:0] a, output [3:0] y, input k); wire [3:0] y; assign y = t; endmodule`. -/
def c84env (t : DF) : MergeEnv :=
  mergeEnvOf ⟨[c33t 'a' [.input], c33t 'y' [.output, .wire], c33t 'k' [.input]], [], 32, fun _ => none⟩ 20 1 [c33b 'y' t none] [c33b 'y' t none]
/-- The clock is `k`. -/
def c84cfg : CodeCfg := { top := ['m'], clock := ['k'], reset := ['r'] }

/-- What is printed for `~a`. -/
example : (c84env (.op .unot [.term (c33n 'a')])).generateCode c84cfg 20 id id [] = .ok ("`default_nettype none\nmodule Subset(\n  k, r, HT_enable, \n  m_a, m_y);\n\n" ++
    "input k;\ninput r;\ninput HT_enable;\nwire m_k;\nwire m_r;\nassign m_k = k;\nassign m_r = r;\n\ninput [3:0] m_a;\noutput wire [3:0] m_y;\n" ++
    "assign m_y = (~m_a);\n\nendmodule\n").toList := by decide +kernel

theorem c84_id (s : Str) (c : Char) (t : Str) (h : s = c :: t) (h1 : isIdStart c = true) (h2 : ∀ x ∈ t, isIdChar x = true)
    (h3 : s ∉ reservedWords) : PlainId s := ⟨⟨c, t, h, h1, h2⟩, h3⟩

theorem c84_plain : c84cfg.Plain :=
  ⟨c84_id _ _ _ rfl (by decide) (by decide) (by decide +kernel), c84_id _ _ _ rfl (by decide) (by decide) (by decide +kernel),
   c84_id _ _ _ rfl (by decide) (by decide) (by decide +kernel), c84_id _ _ _ rfl (by decide) (by decide) (by decide +kernel), by decide,
   c84_id _ 'm' ['_', 'k'] rfl (by decide) (by decide) (by decide +kernel), c84_id _ 'm' ['_', 'r'] rfl (by decide) (by decide) (by decide +kernel)⟩

theorem c84_signal {t : DF} {P : Part} {k : ScopeChain} {tm : Term} (h : P.Signal (c84env t) k tm) :
    (k, tm) = c33t 'a' [.input] ∨ (k, tm) = c33t 'y' [.output, .wire] ∨ (k, tm) = c33t 'k' [.input] := by
  have := Dict.mem_of_get? h.1
  simpa [c84env, mergeEnvOf] using this

theorem c84_assigned {t : DF} {N : List ScopeChain} {b : Bind} (h : (⟨N, [c33b 'y' t none]⟩ : Part).Assigned b) :
    b = { tree := t, dest := c33n 'y', msb := .none, lsb := .none, ptr := .none, always := none } := by
  obtain ⟨y, rs, h1, h2⟩ := h
  simp only [c33b, List.mem_singleton, Prod.mk.injEq] at h1
  rw [h1.2] at h2
  simpa using h2

theorem c84_name (c : Char) (h : c = 'a' ∨ c = 'y') : PlainId (c33n c).tocode := by
  rcases h with rfl | rfl
  · exact c84_id _ 'm' ['_', 'a'] (by decide) (by decide) (by decide) (by decide +kernel)
  · exact c84_id _ 'm' ['_', 'y'] (by decide) (by decide) (by decide) (by decide +kernel)

/-- The tree `~a`. -/
def c84not : DF := .op .unot [.term (c33n 'a')]

theorem c84_printable (N : List ScopeChain) (hN : ∀ n ∈ N, n = c33n 'a' ∨ n = c33n 'y' ∨ n = c33n 'k') :
    Printable (c84env c84not) c84cfg ⟨N, [c33b 'y' c84not none]⟩ := by
  have hw : ∀ c ts, WidthMeans (c33t c ts).2 (some (.intc ['3'], .intc ['0'])) := fun c ts =>
    .range _ _ (.intc _) (.dec '3' [] (by decide) (by simp)) (.intc _) (.dec '0' [] (by decide) (by simp))
  refine ⟨c84_plain, ?_, ?_, ?_, ?_, ?_, ?_⟩
  · intro k t h
    have := Dict.mem_of_get? h
    simp only [c84env, mergeEnvOf, List.mem_cons, List.not_mem_nil, or_false, c33t, Prod.mk.injEq] at this
    rcases this with ⟨rfl, rfl⟩ | ⟨rfl, rfl⟩ | ⟨rfl, rfl⟩ <;> rfl
  · intro n hn
    rcases hN n hn with rfl | rfl | rfl <;> exact ⟨_, rfl⟩
  · intro y rs h _
    simp only [c33b, List.mem_singleton, Prod.mk.injEq] at h
    rw [h.1]
    exact ⟨_, rfl, by decide⟩
  · intro k t h hs
    rcases c84_signal h with h | h | h
    · cases h
      exact ⟨_, .sig _ none (by decide) ⟨.input, by decide⟩ (by decide) (hw 'a' [.input]) .one (c84_name _ (.inl rfl))⟩
    · cases h
      exact ⟨_, .sig _ none (by decide) ⟨.output, by decide⟩ (by decide) (hw 'y' [.output, .wire]) .one (c84_name _ (.inr rfl))⟩
    · cases h
      exact absurd ⟨by decide, by decide⟩ hs
  · intro b hb
    rw [c84_assigned hb]
    exact ⟨_, .assign _ _ (by decide) (by decide) rfl (.term _) ⟨rfl, c84_name _ (.inr rfl)⟩ (.un _ _ _ (.term _)) ⟨rfl, rfl, c84_name _ (.inl rfl)⟩⟩
  · intro _
    refine ⟨fun k t h _ => ?_, fun b hb => ?_⟩
    · rcases c84_signal h with h | h | h <;> cases h <;> refine ⟨by decide, by simp [c33t, DF.Dotless], by simp [c33t, DF.Dotless], by simp [c33t]⟩
    · rw [c84_assigned hb]
      refine ⟨by decide, ?_, by simp [DF.Dotless], by simp [DF.Dotless], by simp [DF.Dotless], by simp⟩
      simp only [c84not, DF.Dotless, DF.DotlessL, and_true]
      decide

theorem c84_port (N : List ScopeChain) : ∃ k t, (⟨N, [c33b 'y' c84not none]⟩ : Part).Signal (c84env c84not) k t ∧ ¬ c84cfg.Sys k t ∧ IsPort k t :=
  ⟨c33n 'y', (c33t 'y' [.output, .wire]).2, ⟨rfl, .inr ⟨_, List.mem_singleton.mpr rfl, by simp⟩⟩, fun h => absurd h.1 (by decide), by decide, by decide⟩

/-- Non-vacuity of `C84_entire_partial` (and, with `C84_reads_partial` below it, of that). -/
example : ∃ text m, (c84env c84not).generateCode c84cfg 20 id id [] = .ok text ∧ SourceParsesTo text [m] ∧
    Faithful (c84env c84not) c84cfg (c84env c84not).whole m :=
  C84_entire_partial _ _ _ _ _ (fun _ _ => Iff.rfl) (c84_printable [c33n 'a', c33n 'y', c33n 'k'] (by simp)) (c84_port _)

/-- Non-vacuity of `C84_subset_partial`: what is behind `y`. -/
example : ∃ text m, (c84env c84not).generateCode c84cfg 20 id id [c33n 'y'] = .ok text ∧ SourceParsesTo text [m] ∧
    Faithful (c84env c84not) c84cfg ⟨[c33n 'a'], [c33b 'y' c84not none]⟩ m :=
  (C84_subset_partial (c84env c84not) c84cfg 20 id id (fun _ _ => Iff.rfl) (fun _ _ => Iff.rfl) [c33n 'y'] (by simp) [c33b 'y' c84not none] [c33n 'a']
    (by decide +kernel) (c84_printable [c33n 'a'] (by simp)) (c84_port _)).2

/-- Non-vacuity of `C84_no_ports`: a module with a wire only. -/
def c84wire : MergeEnv := mergeEnvOf ⟨[c33t 'y' [.wire], c33t 'k' [.input]], [], 32, fun _ => none⟩ 20 1 [] []

example : Printable c84wire c84cfg c84wire.whole ∧ ¬ ∃ k t, c84wire.whole.Signal c84wire k t ∧ ¬ c84cfg.Sys k t ∧ IsPort k t := by
  have hsig : ∀ k t, c84wire.terms.get? k = some t → (k, t) = c33t 'y' [.wire] ∨ (k, t) = c33t 'k' [.input] := by
    intro k t h
    have := Dict.mem_of_get? h
    simpa [c84wire, mergeEnvOf] using this
  have hass : ∀ b, ¬ c84wire.whole.Assigned b := by
    rintro b ⟨y, rs, h, _⟩
    simp [MergeEnv.whole, c84wire, mergeEnvOf] at h
  have hsys : ¬ ¬ c84cfg.Sys (c33n 'k') (c33t 'k' [.input]).2 := fun h => h ⟨by decide, by decide⟩
  refine ⟨⟨c84_plain, ?_, ?_, ?_, ?_, fun b hb => absurd hb (hass b), fun _ => ⟨?_, fun b hb => absurd hb (hass b)⟩⟩, ?_⟩
  · intro k t h
    rcases hsig k t h with h | h <;> cases h <;> rfl
  · intro n hn
    simp only [MergeEnv.whole, c84wire, mergeEnvOf, List.map_cons, List.map_nil, c33t, List.mem_cons, List.not_mem_nil, or_false] at hn
    rcases hn with rfl | rfl <;> exact ⟨_, rfl⟩
  · intro y rs h
    simp [MergeEnv.whole, c84wire, mergeEnvOf] at h
  · intro k t h hs
    rcases hsig k t h.1 with h | h <;> cases h
    · exact ⟨_, .sig _ none (by decide) ⟨.wire, by decide⟩ (by decide)
        (.range _ _ (.intc _) (.dec '3' [] (by decide) (by simp)) (.intc _) (.dec '0' [] (by decide) (by simp))) .one (c84_name _ (.inr rfl))⟩
    · exact absurd hs hsys
  · intro k t h hs
    rcases hsig k t h.1 with h | h <;> cases h
    · refine ⟨by decide, by simp [DF.Dotless], by simp [DF.Dotless], by simp⟩
    · exact absurd hs hsys
  · rintro ⟨k, t, h, hs, hp⟩
    rcases hsig k t h.1 with h | h <;> cases h
    · exact absurd hp.2 (by decide)
    · exact hs ⟨by decide, by decide⟩

/-- Non-vacuity of `C84_nonwire`: `assign` to an `output` which is not declared as a wire as well. -/
example : (mergeEnvOf ⟨[c33t 'a' [.input], c33t 'y' [.output]], [], 32, fun _ => none⟩ 20 1 [] [c33b 'y' c84not none]).generateCode
    c84cfg 20 id id [] = .error .attribute :=
  C84_nonwire _ _ _ _ _ (by simp only [mergeEnvOf, List.mem_singleton]; rintro p rfl; exact ⟨_, rfl⟩) (c33n 'y') _ (List.mem_singleton.mpr rfl)
    (by simp) (c33t 'y' [.output]).2 rfl (by decide)

/-- The tokens of a text of the design above. -/
def c84toks (r : Tok) : List Tok :=
  [.kw "module".toList, .id "Subset".toList, .p .lparen, .id ['k'], .p .comma, .id ['r'], .p .comma, .id "HT_enable".toList, .p .comma,
   .id "m_a".toList, .p .comma, .id "m_y".toList, .p .rparen, .p .semicolon, .kw "input".toList, .id ['k'], .p .semicolon, .kw "input".toList, .id ['r'],
   .p .semicolon, .kw "input".toList, .id "HT_enable".toList, .p .semicolon, .kw "wire".toList, .id "m_k".toList, .p .semicolon, .kw "wire".toList,
   .id "m_r".toList, .p .semicolon, .kw "assign".toList, .id "m_k".toList, .p .equals, .id ['k'], .p .semicolon, .kw "assign".toList, .id "m_r".toList,
   .p .equals, .id ['r'], .p .semicolon, .kw "input".toList, .p .lbracket, .int ['3'], .p .colon, .int ['0'], .p .rbracket, .id "m_a".toList, .p .semicolon,
   .kw "output".toList, .kw "wire".toList, .p .lbracket, .int ['3'], .p .colon, .int ['0'], .p .rbracket, .id "m_y".toList, .p .semicolon,
   .kw "assign".toList, .id "m_y".toList, .p .equals, r, .p .semicolon, .kw "endmodule".toList]

/-- The text of the design above. -/
def c84text (r : String) : Str :=
  ("`default_nettype none\nmodule Subset(\n  k, r, HT_enable, \n  m_a, m_y);\n\n" ++
    "input k;\ninput r;\ninput HT_enable;\nwire m_k;\nwire m_r;\nassign m_k = k;\nassign m_r = r;\n\ninput [3:0] m_a;\noutput wire [3:0] m_y;\n" ++
    "assign m_y = " ++ r ++ ";\n\nendmodule\n").toList

/-- The module read back. -/
def c84mod (r : Ex) : ModuleDef :=
  ⟨"Subset".toList, [], [.port ['k'], .port ['r'], .port "HT_enable".toList, .port "m_a".toList, .port "m_y".toList],
   [oneBit .input ['k'], oneBit .input ['r'], oneBit .input "HT_enable".toList, oneBit .wire "m_k".toList, oneBit .wire "m_r".toList,
    .assign (.ident [] "m_k".toList) (.ident [] ['k']), .assign (.ident [] "m_r".toList) (.ident [] ['r']),
    .decl [.var ⟨.input, "m_a".toList, some (.intc ['3'], .intc ['0']), false, none⟩],
    .decl [.var ⟨.output, "m_y".toList, some (.intc ['3'], .intc ['0']), false, none⟩,
      .var ⟨.wire, "m_y".toList, some (.intc ['3'], .intc ['0']), false, none⟩],
    .assign (.ident [] "m_y".toList) r]⟩

theorem c84_item (r : Ex) : .assign (.ident [] "m_y".toList) r ∈ (c84mod r).items := by
  unfold c84mod
  generalize "m_y".toList = Y
  exact .tail _ (.tail _ (.tail _ (.tail _ (.tail _ (.tail _ (.tail _ (.tail _ (.tail _ (.head _)))))))))

/-- **C84** is false: with flat names (the default) the dots of constants are replaced too.  `assign y = 1.5` becomes
`assign m_y = 1_5`, which is read as fifteen; without, it is read as 1.5. -/
theorem C84_fails_float :
    (∃ text m, (c84env (.fltc "1.5".toList)).generateCode c84cfg 20 id id [] = .ok text ∧ SourceParsesTo text [m] ∧
      .assign (.ident [] "m_y".toList) (.intc "1_5".toList) ∈ m.items ∧ intConstEval "1_5".toList = .ok 15) ∧
    ∃ text m, (c84env (.fltc "1.5".toList)).generateCode { c84cfg with flat := false } 20 id id [] = .ok text ∧ SourceParsesTo text [m] ∧
      .assign (.ident [] "m_y".toList) (.fltc "1.5".toList) ∈ m.items := by
  exact ⟨⟨c84text "1_5", c84mod (.intc "1_5".toList), by decide +kernel, ⟨c84toks (.int "1_5".toList), by decide +kernel, 200, rfl⟩, c84_item _, by decide +kernel⟩,
    ⟨c84text "1.5", c84mod (.fltc "1.5".toList), by decide +kernel, ⟨c84toks (.flt "1.5".toList), by decide +kernel, 200, rfl⟩, c84_item _⟩⟩

/-- **C84** is false: a genvar is declared without a keyword, which the parser rejects.  (The design has an input and a
genvar, and no assignments.) -/
theorem C84_fails_genvar :
    ∃ text, (mergeEnvOf ⟨[c33t 'a' [.input], (c33n 'g', ⟨c33n 'g', [.genvar], .none, .none, none⟩)], [], 32, fun _ => none⟩ 20 1 [] []).generateCode
      c84cfg 20 id id [] = .ok text ∧ ¬ ∃ ms, SourceParsesTo text ms :=
  ⟨("`default_nettype none\nmodule Subset(\n  k, r, HT_enable, \n  m_a);\n\n" ++
    "input k;\ninput r;\ninput HT_enable;\nwire m_k;\nwire m_r;\nassign m_k = k;\nassign m_r = r;\n\ninput [3:0] m_a;\nm_g;\n\nendmodule\n").toList,
   by decide +kernel,
   not_parsed (ts := [.kw "module".toList, .id "Subset".toList, .p .lparen, .id ['k'], .p .comma, .id ['r'], .p .comma, .id "HT_enable".toList, .p .comma,
     .id "m_a".toList, .p .rparen, .p .semicolon, .kw "input".toList, .id ['k'], .p .semicolon, .kw "input".toList, .id ['r'],
     .p .semicolon, .kw "input".toList, .id "HT_enable".toList, .p .semicolon, .kw "wire".toList, .id "m_k".toList, .p .semicolon, .kw "wire".toList,
     .id "m_r".toList, .p .semicolon, .kw "assign".toList, .id "m_k".toList, .p .equals, .id ['k'], .p .semicolon, .kw "assign".toList, .id "m_r".toList,
     .p .equals, .id ['r'], .p .semicolon, .kw "input".toList, .p .lbracket, .int ['3'], .p .colon, .int ['0'], .p .rbracket, .id "m_a".toList,
     .p .semicolon, .id "m_g".toList, .p .semicolon, .kw "endmodule".toList]) 200 (by decide +kernel) rfl rfl⟩

end Pyv
