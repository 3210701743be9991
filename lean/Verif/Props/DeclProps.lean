import Verif.Props.StoresProps
/-
  C39, continued: any sequence of declarations inside a definition.
-/
namespace Pyv
variable {D V P : Type}

/-- One declaration inside a module or function. -/
inductive Decl (V P : Type) where
  | port (p : P)
  | param (n : Str)
  | signal (n : Str) (v : V)
  | const (n : Str) (v : V)

/-- The calls of the visitor, in order. -/
def declRun (t : DefinitionInfoTable D V P) : List (Decl V P) → Py (DefinitionInfoTable D V P)
  | [] => .ok t
  | .port p :: r => do let t' ← t.addPort p; declRun t' r
  | .param n :: r => do let t' ← t.addParamName n; declRun t' r
  | .signal n v :: r => do let t' ← t.addSignal n v; declRun t' r
  | .const n v :: r => do let t' ← t.addConst n v; declRun t' r

/-- Specification: the ports, in the order of their declaration. -/
def portsOf (ops : List (Decl V P)) : List P := ops.filterMap (fun | .port p => some p | _ => none)
/-- Specification: the parameter names, in the order of their declaration. -/
def paramsOf (ops : List (Decl V P)) : List Str := ops.filterMap (fun | .param n => some n | _ => none)
/-- Specification: what is declared as constant `s`, the first time. -/
def constOf (s : Str) (ops : List (Decl V P)) : List V :=
  (ops.filterMap (fun | .const n v => if n = s then some v else none | _ => none)).take 1
/-- Specification: what is declared as signal `s` before `s` is declared as a constant. -/
def signalOf (s : Str) : List (Decl V P) → List V
  | [] => []
  | .const n _ :: r => if n = s then [] else signalOf s r
  | .signal n v :: r => if n = s then v :: signalOf s r else signalOf s r
  | _ :: r => signalOf s r

/-- The entry of a table of variables, empty if there is none. -/
def entry (t : VariableTable V) (s : Str) : List V := (Dict.get? t s).getD []

theorem entry_add (t : VariableTable V) (n : Str) (v : V) (s : Str) :
    entry (t.add n v) s = if n = s then entry t s ++ [v] else entry t s := by
  unfold VariableTable.add entry
  cases h : Dict.get? t n with
  | none =>
    simp only [Dict.get?_set]
    by_cases hn : n = s
    · subst hn; simp [h]
    · simp [hn]
  | some vs =>
    simp only [Dict.get?_set]
    by_cases hn : n = s
    · subst hn; simp [h]
    · simp [hn]

/-- Entries are not empty. -/
def NoEmpty (t : VariableTable V) : Prop := ∀ s, Dict.get? t s ≠ some []
theorem NoEmpty.add {t : VariableTable V} (h : NoEmpty t) (n : Str) (v : V) : NoEmpty (t.add n v) := by
  intro s
  unfold VariableTable.add
  split
  · rw [Dict.get?_set]; split
    · simp
    · exact h s
  · rw [Dict.get?_set]; split
    · simp
    · exact h s
theorem NoEmpty.has {t : VariableTable V} (h : NoEmpty t) (s : Str) : t.has s = !(entry t s).isEmpty := by
  rw [Dict.has_eq]
  unfold entry
  cases hg : Dict.get? t s with
  | none => rfl
  | some l => cases l with
    | nil => exact absurd hg (h s)
    | cons => rfl

theorem update_get {t t' : DefinitionInfoTable D V P} {n : Str} {i : DefinitionInfo D V P} {f : DefinitionInfo D V P → DefinitionInfo D V P}
    (hc : t.current = some n) (hi : t.dict.get? n = some i) :
    t.update f = .ok ⟨Dict.set t.dict n (f i), some n⟩ := by
  unfold DefinitionInfoTable.update
  simp only [hc, hi]

theorem declRun_spec : ∀ (ops : List (Decl V P)) (t : DefinitionInfoTable D V P) (n : Str) (i : DefinitionInfo D V P),
    t.current = some n → t.dict.get? n = some i → NoEmpty i.variables.const →
    ∃ t' i', declRun t ops = .ok t' ∧ t'.current = some n ∧ t'.dict.get? n = some i' ∧
      (∀ m, m ≠ n → t'.dict.get? m = t.dict.get? m) ∧ i'.definition = i.definition ∧
      i'.ioports = i.ioports ++ portsOf ops ∧ i'.params = i.params ++ paramsOf ops ∧
      (∀ s, entry i'.variables.const s = if entry i.variables.const s = [] then constOf s ops else entry i.variables.const s) ∧
      (∀ s, entry i'.variables.signal s = entry i.variables.signal s ++
        (if entry i.variables.const s = [] then signalOf s ops else []))
  | [], t, n, i, hc, hi, _ => ⟨t, i, rfl, hc, hi, fun _ _ => rfl, rfl, by simp [portsOf], by simp [paramsOf],
      fun s => by simp only [constOf, List.filterMap_nil, List.take_nil]; split <;> simp_all, fun s => by simp [signalOf]⟩
  | op :: ops, t, n, i, hc, hi, hne => by
    have hstep : ∃ f : DefinitionInfo D V P → DefinitionInfo D V P, declRun t (op :: ops) = (do let t' ← t.update f; declRun t' ops) ∧
        NoEmpty (f i).variables.const ∧ (f i).definition = i.definition ∧
        (f i).ioports = i.ioports ++ portsOf [op] ∧ (f i).params = i.params ++ paramsOf [op] ∧
        (∀ s, entry (f i).variables.const s = if entry i.variables.const s = [] then constOf s [op] else entry i.variables.const s) ∧
        (∀ s, entry (f i).variables.signal s = entry i.variables.signal s ++
          (if entry i.variables.const s = [] then signalOf s [op] else [])) := by
      cases op with
      | port p =>
        refine ⟨_, rfl, hne, rfl, rfl, by simp [paramsOf], fun s => ?_, fun s => ?_⟩
        · simp only [constOf, List.filterMap_cons, List.filterMap_nil, List.take_nil]; split <;> simp_all
        · simp [signalOf]
      | param p =>
        refine ⟨_, rfl, hne, rfl, by simp [portsOf], rfl, fun s => ?_, fun s => ?_⟩
        · simp only [constOf, List.filterMap_cons, List.filterMap_nil, List.take_nil]; split <;> simp_all
        · simp [signalOf]
      | signal m v =>
        refine ⟨_, rfl, ?_, rfl, by simp [portsOf], by simp [paramsOf], fun s => ?_, fun s => ?_⟩
        · simp only [Variables.addSignal]; split
          · exact hne
          · exact hne
        · simp only [Variables.addSignal, constOf, List.filterMap_cons, List.filterMap_nil, List.take_nil]
          split <;> split <;> simp_all
        · simp only [Variables.addSignal, hne.has m]
          by_cases hm : entry i.variables.const m = []
          · simp only [hm, List.isEmpty_nil, Bool.not_true, Bool.false_eq_true, if_false, entry_add, signalOf]
            by_cases hs : m = s
            · subst hs; simp [hm]
            · simp [hs]
          · have : (entry i.variables.const m).isEmpty = false := by simpa using hm
            simp only [this, Bool.not_false, if_true, signalOf]
            by_cases hs : m = s
            · subst hs; simp [hm]
            · simp [hs]
      | const m v =>
        refine ⟨_, rfl, ?_, rfl, by simp [portsOf], by simp [paramsOf], fun s => ?_, fun s => ?_⟩
        · simp only [Variables.addConst]; split
          · exact hne
          · exact hne.add m v
        · simp only [Variables.addConst, hne.has m]
          by_cases hm : entry i.variables.const m = []
          · simp only [hm, List.isEmpty_nil, Bool.not_true, Bool.false_eq_true, if_false, entry_add]
            by_cases hs : m = s
            · subst hs; simp [hm, constOf]
            · simp only [hs, if_false, constOf, List.filterMap_cons, List.filterMap_nil, List.take_nil]
              split <;> simp_all
          · have : (entry i.variables.const m).isEmpty = false := by simpa using hm
            simp only [this, Bool.not_false, if_true]
            by_cases hs : m = s
            · subst hs; simp [hm]
            · simp only [hs, if_false, constOf, List.filterMap_cons, List.filterMap_nil, List.take_nil]
              split <;> simp_all
        · simp only [Variables.addConst, signalOf]
          split <;> simp
    obtain ⟨f, hf, h1, h2, h3, h4, h5, h6⟩ := hstep
    rw [hf, update_get (t' := t) hc hi, ok_bind]
    obtain ⟨t', i', g1, g2, g3, g4, g5, g6, g7, g8, g9⟩ :=
      declRun_spec ops ⟨Dict.set t.dict n (f i), some n⟩ n (f i) rfl (by simp [Dict.get?_set]) h1
    refine ⟨t', i', g1, g2, g3, fun m hm => ?_, g5.trans h2, ?_, ?_, fun s => ?_, fun s => ?_⟩
    · rw [g4 m hm]; simp only [Dict.get?_set, Ne.symm hm, if_false]
    · rw [g6, h3, List.append_assoc]; congr 1
      simp only [portsOf]; cases op <;> rfl
    · rw [g7, h4, List.append_assoc]; congr 1
      simp only [paramsOf]; cases op <;> rfl
    · rw [g8, h5]
      by_cases hs : entry i.variables.const s = []
      · simp only [hs, if_true]
        have key : constOf s (op :: ops) = if constOf s [op] = [] then constOf s ops else constOf s [op] := by
          cases op with
          | const m v =>
            simp only [constOf, List.filterMap_cons, List.filterMap_nil]
            by_cases hm : m = s <;> simp [hm]
          | _ => simp [constOf]
        rw [key]
      · simp [hs]
    · rw [g9, h6, h5, List.append_assoc]
      congr 1
      by_cases hs : entry i.variables.const s = []
      · simp only [hs, if_true]
        cases op with
        | const m v =>
          by_cases hm : m = s <;> simp [signalOf, constOf, hm]
        | signal m v =>
          by_cases hm : m = s <;> simp [signalOf, constOf, hm]
        | _ => simp [signalOf, constOf]
      · simp [hs]

/-- **C39**: after a definition is added, any sequence of declarations succeeds; the ports and the parameters are those
declared, in the order of declaration; a constant has its first value; a signal has all declarations that come before a
constant of the same name; and nothing changes in the other definitions. -/
theorem C39_history (t : DefinitionInfoTable D V P) (n : Str) (d : D) (t1 : DefinitionInfoTable D V P)
    (h : t.addDefinition n d = .ok t1) (ops : List (Decl V P)) :
    ∃ t2 sig con, declRun t1 ops = .ok t2 ∧ t2.getDefinition n = .ok d ∧
      t2.getIOPorts n = .ok (portsOf ops) ∧ t2.getParamNames n = .ok (paramsOf ops) ∧
      t2.getSignals n = .ok sig ∧ t2.getConsts n = .ok con ∧
      (∀ s, (Dict.get? sig s).getD [] = signalOf s ops) ∧ (∀ s, (Dict.get? con s).getD [] = constOf s ops) ∧
      ∀ m, m ≠ n → t2.getDefinition m = t.getDefinition m ∧ t2.getIOPorts m = t.getIOPorts m ∧
        t2.getParamNames m = t.getParamNames m ∧ t2.getSignals m = t.getSignals m ∧ t2.getConsts m = t.getConsts m := by
  unfold DefinitionInfoTable.addDefinition at h
  split at h
  · cases h
  rw [ok_inj] at h
  subst h
  obtain ⟨t', i', g1, g2, g3, g4, g5, g6, g7, g8, g9⟩ :=
    declRun_spec ops ⟨Dict.set t.dict n ⟨n, d, ⟨[], [], []⟩, [], []⟩, some n⟩ n ⟨n, d, ⟨[], [], []⟩, [], []⟩ rfl
      (by simp [Dict.get?_set]) (by intro s; simp [Dict.get?_nil])
  refine ⟨t', i'.variables.signal, i'.variables.const, g1, ?_, ?_, ?_, ?_, ?_, fun s => ?_, fun s => ?_, fun m hm => ?_⟩
  · simp only [DefinitionInfoTable.getDefinition, g3, g5]
  · simp only [DefinitionInfoTable.getIOPorts, g3, g6, List.nil_append]
  · simp only [DefinitionInfoTable.getParamNames, g3, g7, List.nil_append]
  · simp only [DefinitionInfoTable.getSignals, g3]
  · simp only [DefinitionInfoTable.getConsts, g3]
  · have := g9 s
    simpa [entry, Dict.get?_nil] using this
  · have := g8 s
    simpa [entry, Dict.get?_nil] using this
  · have := g4 m hm
    simp only [Dict.get?_set, Ne.symm hm, if_false] at this
    simp only [DefinitionInfoTable.getDefinition, DefinitionInfoTable.getIOPorts, DefinitionInfoTable.getParamNames,
      DefinitionInfoTable.getSignals, DefinitionInfoTable.getConsts, this, true_and]

/-- Non-vacuity: a signal that is declared again as a constant is kept, a signal declared after the constant is not. -/
example : ∃ t1 t2 : DefinitionInfoTable Nat Nat Nat,
    (⟨[], none⟩ : DefinitionInfoTable Nat Nat Nat).addDefinition ['m'] 0 = .ok t1 ∧
    declRun t1 [.port 1, .signal ['a'] 3, .port 2, .const ['a'] 4, .const ['a'] 5, .signal ['a'] 6] = .ok t2 ∧
    t2.getIOPorts ['m'] = .ok [1, 2] ∧ t2.getSignals ['m'] = .ok [(['a'], [3])] ∧ t2.getConsts ['m'] = .ok [(['a'], [4])] :=
  ⟨_, _, rfl, rfl, rfl, rfl, rfl⟩

/-! ### The variables of a frame -/

/-- A declaration in a frame. -/
inductive VarOp (V : Type) where
  | signal (n : Str) (v : V)
  | const (n : Str) (v : V)
  | genvar (n : Str) (v : V)

/-- One declaration. -/
def VarOp.run (x : Variables V) : VarOp V → Variables V
  | .signal n v => x.addSignal n v
  | .const n v => x.addConst n v
  | .genvar n v => x.addGenvar n v

/-- Specification: not a constant of this name. -/
def VarOp.other (n : Str) : VarOp V → Bool
  | .const m _ => decide (m ≠ n)
  | _ => true
/-- Specification: a signal of this name. -/
def VarOp.signalIn (n : Str) : VarOp V → Option V
  | .signal m v => if m = n then some v else none
  | _ => none
/-- Specification: a genvar of this name. -/
def VarOp.genvarIn (n : Str) : VarOp V → Option V
  | .genvar m v => if m = n then some v else none
  | _ => none
/-- Specification: a constant of this name. -/
def VarOp.constIn (n : Str) : VarOp V → Option V
  | .const m v => if m = n then some v else none
  | _ => none

theorem runVars_spec (s : Str) : ∀ (ops : List (VarOp V)) (x : Variables V), NoEmpty x.const →
    let y := ops.foldl VarOp.run x
    let ops' := if entry x.const s = [] then ops.takeWhile (VarOp.other s) else []
    entry y.signal s = entry x.signal s ++ ops'.filterMap (VarOp.signalIn s) ∧
    entry y.genvar s = entry x.genvar s ++ ops'.filterMap (VarOp.genvarIn s) ∧
    entry y.const s = if entry x.const s = [] then (ops.findSome? (VarOp.constIn s)).toList else entry x.const s
  | [], x, _ => by
    simp only [List.foldl_nil, List.takeWhile_nil, ite_self, List.filterMap_nil, List.append_nil, List.findSome?_nil, Option.toList_none, true_and]
    split <;> simp_all
  | op :: ops, x, hne => by
    have h1 : NoEmpty (op.run x).const := by
      cases op <;> simp only [VarOp.run, Variables.addSignal, Variables.addConst, Variables.addGenvar] <;> split <;> first | exact hne | exact hne.add _ _
    obtain ⟨i1, i2, i3⟩ := runVars_spec s ops (op.run x) h1
    simp only [List.foldl_cons, i1, i2, i3]
    cases op with
    | signal m v =>
      simp only [VarOp.run, Variables.addSignal, hne.has m]
      by_cases hm : entry x.const m = []
      · simp only [hm, List.isEmpty_nil, Bool.not_true, Bool.false_eq_true, if_false, entry_add]
        by_cases hs : m = s
        · subst hs; simp [hm, List.takeWhile_cons, List.filterMap_cons, List.findSome?_cons, VarOp.other, VarOp.signalIn, VarOp.genvarIn, VarOp.constIn]
        · by_cases h0 : entry x.const s = [] <;> simp [hs, h0, List.takeWhile_cons, List.filterMap_cons, List.findSome?_cons, VarOp.other, VarOp.signalIn, VarOp.genvarIn, VarOp.constIn]
      · have : (entry x.const m).isEmpty = false := by simpa using hm
        simp only [this, Bool.not_false, if_true]
        by_cases hs : m = s
        · subst hs; simp [hm]
        · by_cases h0 : entry x.const s = [] <;> simp [hs, h0, List.takeWhile_cons, List.filterMap_cons, List.findSome?_cons, VarOp.other, VarOp.signalIn, VarOp.genvarIn, VarOp.constIn]
    | genvar m v =>
      simp only [VarOp.run, Variables.addGenvar, hne.has m]
      by_cases hm : entry x.const m = []
      · simp only [hm, List.isEmpty_nil, Bool.not_true, Bool.false_eq_true, if_false, entry_add]
        by_cases hs : m = s
        · subst hs; simp [hm, List.takeWhile_cons, List.filterMap_cons, List.findSome?_cons, VarOp.other, VarOp.signalIn, VarOp.genvarIn, VarOp.constIn]
        · by_cases h0 : entry x.const s = [] <;> simp [hs, h0, List.takeWhile_cons, List.filterMap_cons, List.findSome?_cons, VarOp.other, VarOp.signalIn, VarOp.genvarIn, VarOp.constIn]
      · have : (entry x.const m).isEmpty = false := by simpa using hm
        simp only [this, Bool.not_false, if_true]
        by_cases hs : m = s
        · subst hs; simp [hm]
        · by_cases h0 : entry x.const s = [] <;> simp [hs, h0, List.takeWhile_cons, List.filterMap_cons, List.findSome?_cons, VarOp.other, VarOp.signalIn, VarOp.genvarIn, VarOp.constIn]
    | const m v =>
      simp only [VarOp.run, Variables.addConst, hne.has m]
      by_cases hm : entry x.const m = []
      · simp only [hm, List.isEmpty_nil, Bool.not_true, Bool.false_eq_true, if_false, entry_add]
        by_cases hs : m = s
        · subst hs; simp [hm, List.takeWhile_cons, List.filterMap_cons, List.findSome?_cons, VarOp.other, VarOp.constIn]
        · by_cases h0 : entry x.const s = [] <;> simp [hs, h0, List.takeWhile_cons, List.filterMap_cons, List.findSome?_cons, VarOp.other, VarOp.signalIn, VarOp.genvarIn, VarOp.constIn]
      · have : (entry x.const m).isEmpty = false := by simpa using hm
        simp only [this, Bool.not_false, if_true]
        by_cases hs : m = s
        · subst hs; simp [hm]
        · by_cases h0 : entry x.const s = [] <;> simp [hs, h0, List.takeWhile_cons, List.filterMap_cons, List.findSome?_cons, VarOp.other, VarOp.signalIn, VarOp.genvarIn, VarOp.constIn]

/-- **C39**, in a frame: after any history of declarations, under a name are, in their order, the signals (and the genvars) declared before the
first constant of this name, and of the constants the first. -/
theorem C39_variables (ops : List (VarOp V)) (n : Str) :
    let y := ops.foldl VarOp.run ⟨[], [], []⟩
    (Dict.get? y.signal n).getD [] = (ops.takeWhile (VarOp.other n)).filterMap (VarOp.signalIn n) ∧
    (Dict.get? y.genvar n).getD [] = (ops.takeWhile (VarOp.other n)).filterMap (VarOp.genvarIn n) ∧
    (Dict.get? y.const n).getD [] = (ops.findSome? (VarOp.constIn n)).toList := by
  have h := runVars_spec n ops ⟨[], [], []⟩ (by intro s; simp [Dict.get?])
  simpa [entry, Dict.get?] using h

/-- Non-vacuity. -/
example : (Dict.get? (([.signal ['a'] 1, .genvar ['a'] 2, .const ['a'] 3, .signal ['a'] 4, .const ['a'] 5, .genvar ['a'] 6] : List (VarOp Nat)).foldl
    VarOp.run ⟨[], [], []⟩).genvar ['a']).getD [] = [2] := by decide


/-! ### A whole description -/

/-- The calls of the visitor for the definitions of a description, in order. -/
def tableRun (t : DefinitionInfoTable D V P) : List (Str × D × List (Decl V P)) → Py (DefinitionInfoTable D V P)
  | [] => .ok t
  | (n, d, ops) :: r => do
    let t1 ← t.addDefinition n d
    let t2 ← declRun t1 ops
    tableRun t2 r

theorem getDefinition_none {t : DefinitionInfoTable D V P} {n : Str} (h : t.dict.get? n = none) : t.getDefinition n = .error .definition := by
  simp only [DefinitionInfoTable.getDefinition, h]

theorem get_of_getDefinition {t : DefinitionInfoTable D V P} {n : Str} : (t.dict.get? n).isSome ↔ ∃ d, t.getDefinition n = .ok d := by
  unfold DefinitionInfoTable.getDefinition
  cases t.dict.get? n <;> simp

theorem addDefinition_new {t : DefinitionInfoTable D V P} {n : Str} {d : D} (h : t.dict.get? n = none) : ∃ t1, t.addDefinition n d = .ok t1 := by
  unfold DefinitionInfoTable.addDefinition
  rw [if_neg (by simp [Dict.has_eq, h])]
  exact ⟨_, rfl⟩

theorem declRun_others {t1 : DefinitionInfoTable D V P} {t : DefinitionInfoTable D V P} {n : Str} {d : D} (h : t.addDefinition n d = .ok t1)
    (ops : List (Decl V P)) : ∃ t2, declRun t1 ops = .ok t2 ∧ (t2.dict.get? n).isSome ∧ ∀ m, m ≠ n → t2.dict.get? m = t.dict.get? m := by
  unfold DefinitionInfoTable.addDefinition at h
  split at h
  · cases h
  rw [ok_inj] at h
  subst h
  obtain ⟨t', i', g1, _, g3, g4, _⟩ := declRun_spec ops ⟨Dict.set t.dict n ⟨n, d, ⟨[], [], []⟩, [], []⟩, some n⟩ n ⟨n, d, ⟨[], [], []⟩, [], []⟩ rfl
      (by simp [Dict.get?_set]) (by intro s; simp [Dict.get?_nil])
  refine ⟨t', g1, by simp [g3], fun m hm => ?_⟩
  have := g4 m hm
  simpa only [Dict.get?_set, Ne.symm hm, if_false] using this

theorem tableRun_spec : ∀ (ds : List (Str × D × List (Decl V P))) (t : DefinitionInfoTable D V P), (ds.map (·.1)).Nodup →
    (∀ e ∈ ds, t.dict.get? e.1 = none) → ∃ t', tableRun t ds = .ok t' ∧ (∀ n, n ∉ ds.map (·.1) → t'.dict.get? n = t.dict.get? n) ∧
      ∀ e ∈ ds, ∃ sig con, t'.getDefinition e.1 = .ok e.2.1 ∧ t'.getIOPorts e.1 = .ok (portsOf e.2.2) ∧
        t'.getParamNames e.1 = .ok (paramsOf e.2.2) ∧ t'.getSignals e.1 = .ok sig ∧ t'.getConsts e.1 = .ok con ∧
        (∀ s, (Dict.get? sig s).getD [] = signalOf s e.2.2) ∧ ∀ s, (Dict.get? con s).getD [] = constOf s e.2.2
  | [], t, _, _ => ⟨t, rfl, fun _ _ => rfl, by simp⟩
  | (n, d, ops) :: ds, t, hn, hf => by
    simp only [List.map_cons, List.nodup_cons] at hn
    obtain ⟨t1, h1⟩ := addDefinition_new (d := d) (hf (n, d, ops) (by simp))
    obtain ⟨t2, sig, con, h2, a1, a2, a3, a4, a5, a6, a7, _⟩ := C39_history t n d t1 h1 ops
    obtain ⟨t2', h2', _, hoth⟩ := declRun_others h1 ops
    obtain rfl : t2 = t2' := by rw [h2] at h2'; exact ok_inj.mp h2'
    obtain ⟨t', h3, hk, hs⟩ := tableRun_spec ds t2 hn.2 (by
      intro e he
      have : e.1 ≠ n := by rintro rfl; exact hn.1 (List.mem_map.mpr ⟨e, he, rfl⟩)
      rw [hoth _ this]
      exact hf e (List.mem_cons_of_mem _ he))
    refine ⟨t', by simp only [tableRun, h1, ok_bind, h2, h3], ?_, ?_⟩
    · intro m hm
      simp only [List.map_cons, List.mem_cons, not_or] at hm
      rw [hk m hm.2, hoth m hm.1]
    · intro e he
      rcases List.mem_cons.mp he with rfl | he
      · have hkn := hk n hn.1
        refine ⟨sig, con, ?_, ?_, ?_, ?_, ?_, a6, a7⟩
        · simpa only [DefinitionInfoTable.getDefinition, hkn] using a1
        · simpa only [DefinitionInfoTable.getIOPorts, hkn] using a2
        · simpa only [DefinitionInfoTable.getParamNames, hkn] using a3
        · simpa only [DefinitionInfoTable.getSignals, hkn] using a4
        · simpa only [DefinitionInfoTable.getConsts, hkn] using a5
      · exact hs e he

/-- **C39** The table of a whole description of definitions with different names: each definition has its own ports, parameters, signals and
constants; every other name is reported as not defined (DefinitionError). -/
theorem C39_description (ds : List (Str × D × List (Decl V P))) (hn : (ds.map (·.1)).Nodup) :
    ∃ t : DefinitionInfoTable D V P, tableRun ⟨[], none⟩ ds = .ok t ∧
      (∀ n, n ∉ ds.map (·.1) → t.getDefinition n = .error .definition ∧ t.getIOPorts n = .error .definition ∧
        t.getParamNames n = .error .definition ∧ t.getSignals n = .error .definition ∧ t.getConsts n = .error .definition) ∧
      ∀ e ∈ ds, ∃ sig con, t.getDefinition e.1 = .ok e.2.1 ∧ t.getIOPorts e.1 = .ok (portsOf e.2.2) ∧
        t.getParamNames e.1 = .ok (paramsOf e.2.2) ∧ t.getSignals e.1 = .ok sig ∧ t.getConsts e.1 = .ok con ∧
        (∀ s, (Dict.get? sig s).getD [] = signalOf s e.2.2) ∧ ∀ s, (Dict.get? con s).getD [] = constOf s e.2.2 := by
  obtain ⟨t, h, hk, hs⟩ := tableRun_spec ds (⟨[], none⟩ : DefinitionInfoTable D V P) hn (fun _ _ => rfl)
  refine ⟨t, h, fun n hm => ?_, hs⟩
  have : t.dict.get? n = none := by rw [hk n hm]; rfl
  simp only [DefinitionInfoTable.getDefinition, DefinitionInfoTable.getIOPorts, DefinitionInfoTable.getParamNames,
    DefinitionInfoTable.getSignals, DefinitionInfoTable.getConsts, this, and_self]

/-- **C39** A name defined twice is reported: the run fails with DefinitionError, whatever is declared in between. -/
theorem C39_redefined (ds es : List (Str × D × List (Decl V P))) (n : Str) (d : D) (ops : List (Decl V P)) (hn : (ds.map (·.1)).Nodup)
    (hm : n ∈ ds.map (·.1)) : tableRun (⟨[], none⟩ : DefinitionInfoTable D V P) (ds ++ (n, d, ops) :: es) = .error .definition := by
  obtain ⟨t, h, _, hs⟩ := tableRun_spec ds (⟨[], none⟩ : DefinitionInfoTable D V P) hn (fun _ _ => rfl)
  obtain ⟨e, he, rfl⟩ := List.mem_map.mp hm
  obtain ⟨_, _, hd, _⟩ := hs e he
  have hsome := get_of_getDefinition.mpr ⟨_, hd⟩
  have happ : ∀ (as : List (Str × D × List (Decl V P))) (t0 : DefinitionInfoTable D V P), tableRun t0 as = .ok t →
      ∀ bs, tableRun t0 (as ++ bs) = tableRun t bs := by
    intro as
    induction as with
    | nil => intro t0 h0 bs; simp only [tableRun, ok_inj] at h0; subst h0; rfl
    | cons a as ih =>
      intro t0 h0 bs
      obtain ⟨x, y, z⟩ := a
      simp only [tableRun, bind_ok] at h0
      obtain ⟨t1, h1, t2, h2, h3⟩ := h0
      simp only [List.cons_append, tableRun, h1, h2, ok_bind]
      exact ih t2 h3 bs
  rw [happ ds _ h, tableRun, DefinitionInfoTable.addDefinition, if_pos (by simpa [Dict.has_eq] using hsome)]
  rfl

/-- **C39** A declaration outside of any definition fails with KeyError. -/
theorem C39_outside (op : Decl V P) (ops : List (Decl V P)) : declRun (⟨[], none⟩ : DefinitionInfoTable D V P) (op :: ops) = .error .key := by
  cases op <;> rfl

example : ∃ t : DefinitionInfoTable Nat Nat Nat, tableRun ⟨[], none⟩ [(['m'], 0, [.port 1]), (['n'], 1, [.signal ['a'] 3])] = .ok t ∧
    t.getIOPorts ['m'] = .ok [1] ∧ t.getIOPorts ['n'] = .ok [] ∧ t.getIOPorts ['k'] = .error .definition :=
  ⟨_, rfl, rfl, rfl, rfl⟩
example : tableRun (⟨[], none⟩ : DefinitionInfoTable Nat Nat Nat) ([(['m'], 0, [.port 1])] ++ (['m'], 1, []) :: []) = .error .definition :=
  C39_redefined _ _ _ _ _ (by simp) (by simp)

end Pyv
