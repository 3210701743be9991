import Verif.Stores
import Verif.Props.WalkValue
/-
  C36 - C40: the stores of the analysis.
-/
namespace Pyv

/-! ### C36: the store of assignments -/

/-- SPECIFICATION: the range of an assignment. -/
def Bind.key (b : Bind) : DF × DF × DF := (b.msb, b.lsb, b.ptr)

/-- SPECIFICATION: the assignments to `n` of a history, in order. -/
def addedTo (h : List (ScopeChain × Bind)) (n : ScopeChain) : List Bind := (h.filter (fun p => decide (p.1 = n))).map (·.2)

/-- The store after a history of `addBind` calls. -/
def addBinds (d : DataFlow) (h : List (ScopeChain × Bind)) : Py DataFlow := h.foldlM (fun d p => d.addBind (some p.1) p.2) d

theorem addBind_ok (d : DataFlow) (n : ScopeChain) (b : Bind) : ∃ d', d.addBind (some n) b = .ok d' ∧ d'.terms = d.terms ∧
    ∀ m, d'.getBindlist m = if m = n then setBindList (d.getBindlist n) b else d.getBindlist m := by
  unfold DataFlow.addBind DataFlow.getBindlist
  dsimp only
  cases h : d.binds.get? n with
  | none =>
    refine ⟨{ d with binds := Dict.set d.binds n [b] }, rfl, rfl, fun m => ?_⟩
    simp only [Dict.get?_set]
    by_cases e : n = m
    · subst e; simp [setBindList]
    · simp [e, Ne.symm e]
  | some bs =>
    refine ⟨{ d with binds := Dict.set d.binds n (setBindList bs b) }, rfl, rfl, fun m => ?_⟩
    simp only [Dict.get?_set]
    by_cases e : n = m
    · subst e; simp
    · simp [e, Ne.symm e]

theorem addBinds_ok (d : DataFlow) (h : List (ScopeChain × Bind)) : ∃ d', addBinds d h = .ok d' ∧ d'.terms = d.terms ∧
    ∀ n, d'.getBindlist n = (addedTo h n).foldl setBindList (d.getBindlist n) := by
  induction h generalizing d with
  | nil => exact ⟨d, rfl, rfl, fun n => rfl⟩
  | cons p h ih =>
    obtain ⟨d1, h1, ht, hb⟩ := addBind_ok d p.1 p.2
    obtain ⟨d2, h2, ht2, hb2⟩ := ih d1
    refine ⟨d2, ?_, ht2.trans ht, fun n => ?_⟩
    · simp only [addBinds, List.foldlM_cons, h1, ok_bind]; exact h2
    · rw [hb2, hb]
      by_cases e : p.1 = n
      · simp [addedTo, e]
      · simp [addedTo, e, Ne.symm e]

/-- SPECIFICATION: what the store should hold for the assignments `A`, made in this order: for every range, in order of
first use, the first assignment of that range with the tree of the last one. -/
def Stored (A L : List Bind) : Prop :=
  L.map Bind.key = (A.map Bind.key).eraseDups ∧
    ∀ b ∈ L, ∃ first last, A.find? (fun a => decide (a.key = b.key)) = some first ∧
      A.reverse.find? (fun a => decide (a.key = b.key)) = some last ∧ b = { first with tree := last.tree }

theorem setBindList_keys (L : List Bind) (b : Bind) :
    (setBindList L b).map Bind.key = if b.key ∈ L.map Bind.key then L.map Bind.key else L.map Bind.key ++ [b.key] := by
  induction L with
  | nil => simp [setBindList]
  | cons c L ih =>
    simp only [setBindList]
    split
    · rename_i h
      have : c.key = b.key := by simp [Bind.key, h]
      simp only [List.map_cons, List.mem_cons, this, true_or, if_true, List.cons.injEq, and_true]
      exact this
    · rename_i h
      have : b.key ≠ c.key := by simp only [Bind.key, ne_eq, Prod.mk.injEq]; intro e; exact h ⟨e.1.symm, e.2.1.symm, e.2.2.symm⟩
      simp only [List.map_cons, ih, List.mem_cons, this, false_or]
      split <;> simp

theorem setBindList_mem {L : List Bind} (hn : (L.map Bind.key).Nodup) {b x : Bind} (hx : x ∈ setBindList L b) :
    (x.key ≠ b.key ∧ x ∈ L) ∨ (b.key ∉ L.map Bind.key ∧ x = b) ∨ ∃ c ∈ L, c.key = b.key ∧ x = { c with tree := b.tree } := by
  induction L with
  | nil => simp [setBindList] at hx; simp [hx]
  | cons c L ih =>
    simp only [List.map_cons, List.nodup_cons] at hn
    simp only [setBindList] at hx
    split at hx
    · rename_i h
      have e : c.key = b.key := by simp [Bind.key, h]
      rcases List.mem_cons.mp hx with rfl | hx
      · exact .inr (.inr ⟨c, by simp, e, rfl⟩)
      · refine .inl ⟨fun e2 => hn.1 ?_, by simp [hx]⟩
        rw [e, ← e2]; exact List.mem_map_of_mem hx
    · rename_i h
      have e : c.key ≠ b.key := by
        simp only [Bind.key, ne_eq, Prod.mk.injEq]; intro e; exact h e
      rcases List.mem_cons.mp hx with rfl | hx
      · exact .inl ⟨e, by simp⟩
      · rcases ih hn.2 hx with h | h | ⟨d, hd, h⟩
        · exact .inl ⟨h.1, by simp [h.2]⟩
        · refine .inr (.inl ⟨?_, h.2⟩)
          simp only [List.map_cons, List.mem_cons, not_or]
          exact ⟨fun e2 => e e2.symm, h.1⟩
        · exact .inr (.inr ⟨d, by simp [hd], h⟩)

theorem eraseDups_snoc {α : Type} [BEq α] [LawfulBEq α] (l : List α) (a : α) :
    (l ++ [a]).eraseDups = if l.contains a then l.eraseDups else l.eraseDups ++ [a] := by
  rw [List.eraseDups_append]
  by_cases h : a ∈ l
  · simp [List.removeAll, h]
  · simp [List.removeAll, h, List.eraseDups_cons]

theorem nodup_eraseDups {α : Type} [BEq α] [LawfulBEq α] (l : List α) : l.eraseDups.Nodup := by
  induction l using List.reverseRecOn with
  | nil => simp
  | append_singleton l a ih =>
    rw [eraseDups_snoc]
    split
    · exact ih
    · rename_i h
      rw [List.contains_iff_mem] at h
      rw [List.nodup_append]
      refine ⟨ih, by simp, ?_⟩
      intro x hx y hy
      simp at hy; subst hy
      rintro rfl
      exact h (by simpa using hx)

theorem stored_foldl (A : List Bind) : Stored A (A.foldl setBindList []) := by
  induction A using List.reverseRecOn with
  | nil => simp [Stored]
  | append_singleton A b ih =>
    obtain ⟨hk, hL⟩ := ih
    rw [List.foldl_append, List.foldl_cons, List.foldl_nil]
    generalize A.foldl setBindList [] = L at *
    have hkm : ∀ k, k ∈ L.map Bind.key ↔ k ∈ A.map Bind.key := by intro k; rw [hk]; simp
    refine ⟨?_, fun x hx => ?_⟩
    · rw [setBindList_keys, List.map_append, List.map_singleton, eraseDups_snoc, hk]
      simp only [List.mem_eraseDups, List.contains_iff_mem]
    · have hnd : (L.map Bind.key).Nodup := by rw [hk]; exact nodup_eraseDups _
      rcases setBindList_mem hnd hx with ⟨hne, hx⟩ | ⟨hb, rfl⟩ | ⟨c, hc, e, rfl⟩
      · obtain ⟨f, l, h1, h2, h3⟩ := hL x hx
        refine ⟨f, l, by rw [List.find?_append, h1]; rfl, ?_, h3⟩
        rw [List.reverse_append]
        simp only [List.reverse_singleton, List.singleton_append, List.find?_cons]
        rw [show decide (b.key = x.key) = false by simpa using Ne.symm hne]
        exact h2
      · have hnot : ∀ a ∈ A, a.key ≠ x.key := fun a ha e => hb ((hkm _).mpr (e ▸ List.mem_map_of_mem ha))
        refine ⟨x, x, ?_, ?_, rfl⟩
        · rw [List.find?_append, List.find?_eq_none.mpr (fun a ha => by simpa using hnot a ha)]; simp
        · rw [List.reverse_append]; simp
      · obtain ⟨f, l, h1, h2, h3⟩ := hL c hc
        have ek : ({ c with tree := b.tree } : Bind).key = b.key := e
        refine ⟨f, b, ?_, ?_, ?_⟩
        · rw [ek, ← e, List.find?_append, h1]; rfl
        · rw [List.reverse_append]; simp only [List.reverse_singleton, List.singleton_append, List.find?_cons, ek, decide_true]
        · rw [h3]

/-- **C36**: after any sequence of `addBind` calls on an empty store, `getBindlist(n)` holds exactly one assignment per
range added for `n`, in order of first addition: the first one added, with the tree of the last one added. -/
theorem C36_bind_store (h : List (ScopeChain × Bind)) : ∃ d, addBinds .empty h = .ok d ∧
    ∀ n, Stored (addedTo h n) (d.getBindlist n) := by
  obtain ⟨d, hd, _, hb⟩ := addBinds_ok .empty h
  refine ⟨d, hd, fun n => ?_⟩
  rw [hb]
  exact stored_foldl _

/-- Adding an assignment without a name raises. -/
theorem C36_no_name (d : DataFlow) (b : Bind) : d.addBind none b = .error .definition := rfl

/-- Non-vacuity: `x[3:0] = a`, `x[7:4] = b`, `x[3:0] = c` (under a clock): the clock of the third is dropped. -/
example : let bd := fun t m l a => ({ tree := .term (c33n t), dest := c33n 'x', msb := .intc [m], lsb := .intc [l], ptr := .none, always := a } : Bind)
    (addedTo [(c33n 'x', bd 'a' '3' '0' none), (c33n 'y', bd 'a' '3' '0' none), (c33n 'x', bd 'b' '7' '4' none),
      (c33n 'x', bd 'c' '3' '0' c33clk)] (c33n 'x')).foldl setBindList [] = [bd 'c' '3' '0' none, bd 'b' '7' '4' none] := by
  decide

/-! ### C37: the store of terms -/

/-- SPECIFICATION: the first given value: `.none` is None. -/
def firstGiven (l : List DF) : DF := (l.find? (fun x => decide (x ≠ .none))).getD .none

/-- SPECIFICATION: the declarations of `n` of a history, in order. -/
def declaredAs (h : List (ScopeChain × Term)) (n : ScopeChain) : List Term := (h.filter (fun p => decide (p.1 = n))).map (·.2)

/-- The store after a history of `addTerm` calls. -/
def addTerms (d : DataFlow) (h : List (ScopeChain × Term)) : DataFlow := h.foldl (fun d p => d.addTerm p.1 p.2) d

theorem addTerm_get (d : DataFlow) (n m : ScopeChain) (t : Term) : (d.addTerm n t).getTerm m =
    if m = n then some (match d.getTerm n with | none => t | some o => o.merge t) else d.getTerm m := by
  unfold DataFlow.addTerm DataFlow.getTerm
  cases h : d.terms.get? n with
  | none =>
    simp only [Dict.get?_set]
    by_cases e : n = m
    · subst e; simp
    · simp [e, Ne.symm e]
  | some o =>
    simp only [Dict.get?_set]
    by_cases e : n = m
    · subst e; simp
    · simp [e, Ne.symm e]

theorem addTerm_binds (d : DataFlow) (n : ScopeChain) (t : Term) : (d.addTerm n t).binds = d.binds := by
  unfold DataFlow.addTerm; split <;> rfl

theorem firstGiven_snoc (l : List DF) (x : DF) : firstGiven (l ++ [x]) = (firstGiven l).orElse x := by
  unfold firstGiven DF.orElse
  rw [List.find?_append]
  cases h : l.find? (fun x => decide (x ≠ .none)) with
  | none => by_cases hx : x = .none <;> simp [hx]
  | some y =>
    have := List.find?_some h
    simp at this
    simp [this]

/-- **C37**: after any sequence of `addTerm` calls on an empty store, a name never declared is absent; a declared one has
the name of its first declaration, the union of all declared types, and the first msb, lsb and dimensions given. -/
theorem C37_term_store (h : List (ScopeChain × Term)) (n : ScopeChain) :
    match (addTerms .empty h).getTerm n with
    | none => declaredAs h n = []
    | some t => (declaredAs h n).head?.map (·.name) = some t.name ∧
        (∀ ty, ty ∈ t.types ↔ ∃ a ∈ declaredAs h n, ty ∈ a.types) ∧
        t.msb = firstGiven ((declaredAs h n).map (·.msb)) ∧ t.lsb = firstGiven ((declaredAs h n).map (·.lsb)) ∧
        t.dims = (declaredAs h n).findSome? (·.dims) := by
  induction h using List.reverseRecOn with
  | nil => simp [addTerms, DataFlow.empty, DataFlow.getTerm, declaredAs, Dict.get?]
  | append_singleton h p ih =>
    have e1 : addTerms .empty (h ++ [p]) = (addTerms .empty h).addTerm p.1 p.2 := by simp [addTerms]
    rw [e1, addTerm_get]
    by_cases e : n = p.1
    · have e2 : declaredAs (h ++ [p]) n = declaredAs h n ++ [p.2] := by simp [declaredAs, e]
      rw [if_pos e, e2]
      subst e
      dsimp only
      cases hg : (addTerms .empty h).getTerm p.1 with
      | none =>
        rw [hg] at ih
        dsimp only at ih ⊢
        rw [ih]
        have : ∀ x : DF, firstGiven [x] = x := by intro x; unfold firstGiven; by_cases hx : x = .none <;> simp [hx]
        cases hd : p.2.dims <;> simp [this, hd]
      | some o =>
        rw [hg] at ih
        dsimp only at ih ⊢
        obtain ⟨h1, h2, h3, h4, h5⟩ := ih
        refine ⟨?_, fun ty => ?_, ?_, ?_, ?_⟩
        · cases hd : declaredAs h p.1 with
          | nil => rw [hd] at h1; simp at h1
          | cons a l => rw [hd] at h1; simpa [Term.merge] using h1
        · simp only [Term.merge, mem_setUnion, h2, List.mem_append, List.mem_singleton]
          constructor
          · rintro (⟨a, ha, h⟩ | h)
            · exact ⟨a, .inl ha, h⟩
            · exact ⟨_, .inr rfl, h⟩
          · rintro ⟨a, ha | rfl, h⟩
            · exact .inl ⟨a, ha, h⟩
            · exact .inr h
        · simp only [Term.merge, List.map_append, List.map_singleton, firstGiven_snoc, h3]
        · simp only [Term.merge, List.map_append, List.map_singleton, firstGiven_snoc, h4]
        · simp only [Term.merge, List.findSome?_append, ← h5, List.findSome?_cons, List.findSome?_nil]
          cases o.dims <;> simp <;> cases p.2.dims <;> simp
    · have e2 : declaredAs (h ++ [p]) n = declaredAs h n := by simp [declaredAs, Ne.symm e]
      rw [if_neg e, e2]
      exact ih

/-- Non-vacuity: `output [3:0] q; reg q;`. -/
example : let h := [(c33n 'q', (⟨c33n 'q', [.output], .intc ['3'], .intc ['0'], none⟩ : Term)),
      (c33n 'q', ⟨c33n 'q', [.reg], .none, .none, none⟩)]
    ∃ t, (addTerms .empty h).getTerm (c33n 'q') = some t ∧ t.types = [.output, .reg] ∧ t.msb = .intc ['3'] :=
  ⟨_, rfl, by decide, by decide⟩

/-! ### C38: labels -/

/-- A use of the label store: `get name` or `inc name`. -/
inductive LabelUse where
  | get (name : Str)
  | inc (name : Str)

def LabelUse.name : LabelUse → Str
  | .get n => n
  | .inc n => n

/-- The labels returned by a history of uses. -/
def labelRun (l : Labels) : List LabelUse → List Str
  | [] => []
  | .get n :: us => (l.get n).1 :: labelRun (l.get n).2 us
  | .inc n :: us => labelRun (l.inc n) us

/-- SPECIFICATION: the name does not end in a digit. -/
def NoDigitEnd (s : Str) : Prop := ∀ c, s.getLast? = some c → c.isDigit = false

theorem natStr_digits (n : Nat) : ∀ c ∈ natStr n, c.isDigit = true :=
  fun _ h => Nat.isDigit_of_mem_toDigits (by omega) (by omega) h

theorem natStr_inj {a b : Nat} (h : natStr a = natStr b) : a = b := by
  have := congrArg (fun l => Nat.ofDigitChars 10 l 0) h
  simpa [natStr, Nat.ofDigitChars_ten_toDigits] using this

theorem append_digits_inj {a b : Str} {m n : Str} (ha : NoDigitEnd a) (hb : NoDigitEnd b) (hm : ∀ c ∈ m, c.isDigit = true)
    (hn : ∀ c ∈ n, c.isDigit = true) (h : a ++ m = b ++ n) : a = b ∧ m = n := by
  have key : ∀ (a : Str), NoDigitEnd a → ∀ m : Str, (∀ c ∈ m, c.isDigit = true) →
      ((a ++ m).reverse.dropWhile Char.isDigit).reverse = a := by
    intro a ha m hm
    rw [List.reverse_append, List.dropWhile_append_of_pos (by simpa using hm)]
    cases hr : a.reverse with
    | nil => simp at hr; subst hr; rfl
    | cons c l =>
      have hl : a = l.reverse ++ [c] := by rw [← List.reverse_reverse a, hr]; simp
      have hc := ha c (by rw [hl]; simp)
      rw [List.dropWhile_cons, if_neg (by simp [hc]), hl]; simp
  have h1 := key a ha m hm
  rw [h, key b hb n hn] at h1
  subst h1
  exact ⟨rfl, List.append_cancel_left h⟩

theorem labelRun_spec (us : List LabelUse) (hus : ∀ u ∈ us, NoDigitEnd u.name) : ∀ (l : Labels),
    (labelRun l us).Nodup ∧ ∀ s ∈ labelRun l us, ∃ n c, NoDigitEnd n ∧ (Dict.get? l n).getD 0 ≤ c ∧ s = n ++ natStr c := by
  induction us with
  | nil => intro l; simp [labelRun]
  | cons u us ih =>
    have ih := ih (fun v hv => hus v (by simp [hv]))
    have hu := hus u (by simp)
    intro l
    have mono : ∀ (n m : Str) (k : Nat), (Dict.get? l n).getD 0 ≤ k →
        (Dict.get? l m).getD 0 ≤ (Dict.get? (Dict.set l n (k + 1)) m).getD 0 := by
      intro n m k hk
      rw [Dict.get?_set]
      by_cases e : n = m
      · subst e; simp; omega
      · simp [e]
    cases u with
    | inc n =>
      obtain ⟨h1, h2⟩ := ih (Labels.inc l n)
      simp only [labelRun]
      refine ⟨h1, fun s hs => ?_⟩
      obtain ⟨m, c, hm, hc, e⟩ := h2 s hs
      exact ⟨m, c, hm, le_trans (mono n m _ (le_refl _)) hc, e⟩
    | get n =>
      obtain ⟨h1, h2⟩ := ih (Labels.get l n).2
      simp only [labelRun, List.nodup_cons]
      refine ⟨⟨fun hmem => ?_, h1⟩, fun s hs => ?_⟩
      · obtain ⟨m, c, hm, hc, e⟩ := h2 _ hmem
        have := append_digits_inj hu hm (natStr_digits _) (natStr_digits _) e
        simp only [LabelUse.name] at this
        obtain ⟨rfl, e2⟩ := this
        have := natStr_inj e2
        simp only [Labels.get, Dict.get?_set, if_true, Option.getD_some] at hc
        omega
      · rcases List.mem_cons.mp hs with rfl | hs
        · exact ⟨n, _, hu, le_refl _, rfl⟩
        · obtain ⟨m, c, hm, hc, e⟩ := h2 s hs
          exact ⟨m, c, hm, le_trans (mono n m _ (le_refl _)) hc, e⟩

/-- **C38**: the labels returned by any history of `get` and `inc` calls are pairwise different, for names that do not end
in a digit. -/
theorem C38_labels_unique (us : List LabelUse) (h : ∀ u ∈ us, NoDigitEnd u.name) : (labelRun [] us).Nodup :=
  (labelRun_spec us h []).1

/-- Non-vacuity. -/
example : labelRun [] [.get ['i', 'f'], .get ['_', 'i', 'f'], .inc ['i', 'f'], .get ['i', 'f']] =
    [['i', 'f', '0'], ['_', 'i', 'f', '0'], ['i', 'f', '2']] := by decide

/-- The restriction to names without a digit at the end is needed: `get("a")` eleven times and `get("a1")` once return
"a10" twice. -/
theorem C38_digit_end_false : ¬ (labelRun [] (List.replicate 11 (.get ['a']) ++ [.get ['a', '1']])).Nodup := by decide

/-! ### C39: definitions -/

variable {D V P : Type}

/-- **C39**: adding a definition under an existing name raises (and the old table is kept, being immutable here);
otherwise it succeeds, the definition is found, and all other definitions, their ports, parameters and variables are
unchanged. -/
theorem C39_add_definition (t : DefinitionInfoTable D V P) (n : Str) (d : D) :
    ((∃ x, t.getDefinition n = .ok x) → t.addDefinition n d = .error .definition) ∧
    (t.getDefinition n = .error .definition → ∃ t', t.addDefinition n d = .ok t' ∧ t'.getDefinition n = .ok d ∧
      t'.getIOPorts n = .ok [] ∧ t'.getParamNames n = .ok [] ∧
      ∀ m, m ≠ n → t'.getDefinition m = t.getDefinition m ∧ t'.getIOPorts m = t.getIOPorts m ∧
        t'.getParamNames m = t.getParamNames m ∧ t'.getSignals m = t.getSignals m ∧ t'.getConsts m = t.getConsts m) := by
  constructor
  · rintro ⟨x, hx⟩
    unfold DefinitionInfoTable.addDefinition
    rw [Dict.has_eq]
    unfold DefinitionInfoTable.getDefinition at hx
    split at hx
    · cases hx
    · rename_i e; simp [e]
  · intro h
    have hg : t.dict.get? n = none := by
      unfold DefinitionInfoTable.getDefinition at h
      split at h
      · assumption
      · cases h
    refine ⟨⟨Dict.set t.dict n ⟨n, d, ⟨[], [], []⟩, [], []⟩, some n⟩, ?_, ?_, ?_, ?_, fun m hm => ?_⟩
    · simp [DefinitionInfoTable.addDefinition, Dict.has_eq, hg]
    · simp [DefinitionInfoTable.getDefinition, Dict.get?_set]
    · simp [DefinitionInfoTable.getIOPorts, Dict.get?_set]
    · simp [DefinitionInfoTable.getParamNames, Dict.get?_set]
    · simp only [DefinitionInfoTable.getDefinition, DefinitionInfoTable.getIOPorts, DefinitionInfoTable.getParamNames,
        DefinitionInfoTable.getSignals, DefinitionInfoTable.getConsts, Dict.get?_set, Ne.symm hm, if_false, and_self]

/-- Ports, parameters, signals and constants are recorded for the definition added last, and for no other. -/
theorem C39_current (t : DefinitionInfoTable D V P) (n : Str) (d : D) (t' : DefinitionInfoTable D V P)
    (h : t.addDefinition n d = .ok t') (p : P) (s : Str) (v : V) :
    (∃ t2, t'.addPort p = .ok t2 ∧ t2.getIOPorts n = .ok [p] ∧ ∀ m, m ≠ n → t2.getIOPorts m = t'.getIOPorts m) ∧
    (∃ t2, t'.addParamName s = .ok t2 ∧ t2.getParamNames n = .ok [s] ∧ ∀ m, m ≠ n → t2.getParamNames m = t'.getParamNames m) ∧
    (∃ t2, t'.addSignal s v = .ok t2 ∧ t2.getSignals n = .ok [(s, [v])] ∧ ∀ m, m ≠ n → t2.getSignals m = t'.getSignals m) ∧
    (∃ t2, t'.addConst s v = .ok t2 ∧ t2.getConsts n = .ok [(s, [v])] ∧ ∀ m, m ≠ n → t2.getConsts m = t'.getConsts m) := by
  unfold DefinitionInfoTable.addDefinition at h
  split at h
  · cases h
  rw [ok_inj] at h
  subst h
  simp only [DefinitionInfoTable.addPort, DefinitionInfoTable.addParamName, DefinitionInfoTable.addSignal,
    DefinitionInfoTable.addConst, DefinitionInfoTable.update, Dict.get?_set, if_true]
  refine ⟨⟨_, rfl, ?_, fun m hm => ?_⟩, ⟨_, rfl, ?_, fun m hm => ?_⟩, ⟨_, rfl, ?_, fun m hm => ?_⟩, ⟨_, rfl, ?_, fun m hm => ?_⟩⟩
  all_goals simp only [DefinitionInfoTable.getIOPorts, DefinitionInfoTable.getParamNames, DefinitionInfoTable.getSignals,
    DefinitionInfoTable.getConsts, Dict.get?_set, if_true]
  all_goals first | rfl | simp only [Ne.symm hm, if_false]

/-- Non-vacuity. -/
example : ∃ t' : DefinitionInfoTable Nat Nat Nat, (⟨[(['a'], ⟨['a'], 1, ⟨[], [], []⟩, [7], []⟩)], some ['a']⟩ :
    DefinitionInfoTable Nat Nat Nat).addDefinition ['b'] 2 = .ok t' ∧ t'.getIOPorts ['a'] = .ok [7] := ⟨_, rfl, rfl⟩

/-! ### C40: assignments recorded in a frame -/

/-- **C40** as stated is FALSE: after `x[3:0] = a`, recording `x[3:2] = b` replaces the assignment of `x[3:0]`: the two
ranges have the same most significant bit, and the least significant bits are not compared. -/
theorem C40_range_false :
    let b1 : Bind := { tree := .term (c33n 'a'), dest := c33n 'x', msb := .intc ['3'], lsb := .intc ['0'], ptr := .none, always := none }
    let b2 : Bind := { tree := .term (c33n 'b'), dest := c33n 'x', msb := .intc ['3'], lsb := .intc ['2'], ptr := .none, always := none }
    getFrameAssign (setFrameAssign (setFrameAssign [] (c33n 'x') b1) (c33n 'x') b2) (c33n 'x') = [{ b1 with tree := b2.tree }] := by
  decide

theorem getFrameAssign_set (d : Dict ScopeChain (List Bind)) (dst n : ScopeChain) (b : Bind) :
    getFrameAssign (setFrameAssign d dst b) n = if n = dst then setFrameList (getFrameAssign d dst) b else getFrameAssign d n := by
  unfold setFrameAssign getFrameAssign
  cases h : d.get? dst with
  | none =>
    simp only [Dict.get?_set]
    by_cases e : dst = n
    · subst e; simp [setFrameList]
    · simp [e, Ne.symm e]
  | some bs =>
    simp only [Dict.get?_set]
    by_cases e : dst = n
    · subst e; simp
    · simp [e, Ne.symm e]

/-- **C40** (what holds): recording an assignment keeps, unchanged, every assignment recorded for another signal, and
every one for the same signal with another index or most significant bit; and the new tree is recorded. -/
theorem C40_frame_partial (d : Dict ScopeChain (List Bind)) (dst : ScopeChain) (b : Bind) :
    (∀ n, n ≠ dst → getFrameAssign (setFrameAssign d dst b) n = getFrameAssign d n) ∧
    (∀ c ∈ getFrameAssign d dst, (c.msb ≠ b.msb ∨ c.ptr ≠ b.ptr) → c ∈ getFrameAssign (setFrameAssign d dst b) dst) ∧
    ∃ c ∈ getFrameAssign (setFrameAssign d dst b) dst, c.msb = b.msb ∧ c.ptr = b.ptr ∧ c.tree = b.tree := by
  refine ⟨fun n hn => by rw [getFrameAssign_set, if_neg hn], ?_, ?_⟩ <;> rw [getFrameAssign_set, if_pos rfl] <;>
    generalize getFrameAssign d dst = L
  · intro c hc hne
    induction L with
    | nil => simp at hc
    | cons a L ih =>
      simp only [setFrameList]
      rcases List.mem_cons.mp hc with rfl | hc
      · rw [if_neg (by tauto)]; simp
      · split
        · simp [hc]
        · simp [ih hc]
  · induction L with
    | nil => exact ⟨b, by simp [setFrameList], rfl, rfl, rfl⟩
    | cons a L ih =>
      simp only [setFrameList]
      split
      · rename_i h; exact ⟨{ a with tree := b.tree }, by simp, h.1, h.2.2, rfl⟩
      · obtain ⟨c, hc, h⟩ := ih; exact ⟨c, by simp [hc], h⟩

/-- Non-vacuity. -/
example :
    let b1 : Bind := { tree := .term (c33n 'a'), dest := c33n 'x', msb := .intc ['3'], lsb := .intc ['0'], ptr := .none, always := none }
    let b2 : Bind := { tree := .term (c33n 'b'), dest := c33n 'x', msb := .intc ['7'], lsb := .intc ['4'], ptr := .none, always := none }
    b1 ∈ getFrameAssign (setFrameAssign [] (c33n 'x') b1) (c33n 'x') ∧ (b1.msb ≠ b2.msb ∨ b1.ptr ≠ b2.ptr) ∧
    getFrameAssign (setFrameAssign (setFrameAssign [] (c33n 'x') b1) (c33n 'x') b2) (c33n 'x') = [b1, b2] := by
  decide

end Pyv
