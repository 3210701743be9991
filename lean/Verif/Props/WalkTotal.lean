import Verif.Walker
import Verif.Props.TransitionProps
import Verif.Props.ReorderTotal
/-
  C33: walking a design terminates.
-/
namespace Pyv

/-- From some recursion depth on the result no longer changes, and it is not "out of depth". -/
def Settles {α : Type} (f : Nat → Py α) : Prop := ∃ r, r ≠ .error .recursion ∧ ∃ K, ∀ k ≥ K, f k = r

theorem Settles.const {α : Type} {r : Py α} (h : r ≠ .error .recursion) : Settles (fun _ => r) := ⟨r, h, 0, fun _ _ => rfl⟩

theorem Settles.ok {α : Type} (a : α) : Settles (fun _ => (.ok a : Py α)) := Settles.const (by simp)

theorem Settles.bind {α β : Type} {f : Nat → Py α} {g : Nat → α → Py β} (hf : Settles f)
    (hg : ∀ a, Settles (fun k => g k a)) : Settles (fun k => f k >>= g k) := by
  obtain ⟨r, hr, K, hK⟩ := hf
  cases r with
  | error e =>
    refine ⟨.error e, by simpa using hr, K, fun k hk => ?_⟩
    show f k >>= g k = _
    rw [hK k hk]; rfl
  | ok a =>
    obtain ⟨r', hr', K', hK'⟩ := hg a
    refine ⟨r', hr', max K K', fun k hk => ?_⟩
    show f k >>= g k = _
    rw [hK k (by omega), ok_bind]; exact hK' k (by omega)

theorem Settles.mapM {α β : Type} {f : Nat → α → Py β} {ns : List α} (h : ∀ n ∈ ns, Settles (fun k => f k n)) :
    Settles (fun k => ns.mapM (f k)) := by
  induction ns with
  | nil => simp only [List.mapM_nil]; exact Settles.ok []
  | cons n ns ih =>
    simp only [List.mapM_cons]
    refine Settles.bind (h n (by simp)) (fun a => Settles.bind (ih (fun m hm => h m (by simp [hm]))) (fun b => ?_))
    exact Settles.ok _

theorem Settles.succ {α : Type} {f : Nat → Py α} (h : Settles (fun k => f (k + 1))) : Settles f := by
  obtain ⟨r, hr, K, hK⟩ := h
  refine ⟨r, hr, K + 1, fun k hk => ?_⟩
  obtain ⟨j, rfl⟩ : ∃ j, k = j + 1 := ⟨k - 1, by omega⟩
  exact hK j (by omega)

/-- No exception "recursion" (any other outcome). -/
def NoRec {α : Type} (x : Py α) : Prop := x ≠ .error .recursion

theorem NoRec.bind {α β : Type} {x : Py α} {f : α → Py β} (h : NoRec x) (hf : ∀ a, NoRec (f a)) : NoRec (x >>= f) := by
  cases x with
  | error e => intro h'; exact h (by simpa [Bind.bind, Except.bind] using h')
  | ok a => rw [ok_bind]; exact hf a

theorem noRec_ok {α : Type} (a : α) : NoRec (.ok a : Py α) := by simp [NoRec]

theorem noRec_toInt (v : PyVal) : NoRec v.toInt := by cases v <;> simp [PyVal.toInt, NoRec]

theorem noRec_mkOp (o : Op) (ns : List DF) : NoRec (DF.mkOp o ns) := by
  unfold DF.mkOp; split <;> simp [NoRec]

theorem noRec_digitsVal (b : Nat) (acc : Nat) (s : Str) : NoRec (digitsVal b acc s) := by
  induction s generalizing acc with
  | nil => simp [digitsVal, NoRec]
  | cons c cs ih =>
    simp only [digitsVal]
    split
    · split
      · exact ih _
      · simp [NoRec]
    · simp [NoRec]

theorem noRec_pyIntOf (b : Nat) (s : Str) : NoRec (pyIntOf b s) := by
  have hb : ∀ t : Str, NoRec (if t = [] then (.error .value : Py Nat) else digitsVal b 0 (stripPrefix b t)) := by
    intro t; split
    · simp [NoRec]
    · exact noRec_digitsVal _ _ _
  unfold pyIntOf
  dsimp only
  split
  · exact NoRec.bind (hb _) (fun a => noRec_ok _)
  · exact NoRec.bind (hb _) (fun a => noRec_ok _)
  · exact NoRec.bind (hb _) (fun a => noRec_ok _)

theorem noRec_intConstEval (s : Str) : NoRec (intConstEval s) := by
  unfold intConstEval
  dsimp only
  repeat' split
  all_goals exact noRec_pyIntOf _ _

theorem noRec_evalInt (t : DF) : NoRec t.evalInt := by
  cases t <;> simp only [DF.evalInt] <;> first | exact noRec_intConstEval _ | exact noRec_toInt _ | simp [NoRec]

theorem noRec_childLsb (S : MergeEnv) (t : DF) : NoRec (S.childLsb t) := by
  cases t <;> simp only [MergeEnv.childLsb] <;> try simp [NoRec]
  split
  · simp
  · exact noRec_evalInt _

theorem noRec_walkPsel (S : MergeEnv) (a b c d : DF) : NoRec (S.walkPsel a b c d) := by
  unfold MergeEnv.walkPsel
  split
  · refine NoRec.bind (noRec_childLsb _ _) (fun _ => NoRec.bind (noRec_evalInt _) (fun _ =>
      NoRec.bind (noRec_evalInt _) (fun _ => NoRec.bind (noRec_evalInt _) (fun _ => noRec_ok _))))
  · exact noRec_ok _

theorem noRec_hasDims (S : MergeEnv) (n : ScopeChain) : NoRec (S.hasDims n) := by
  unfold MergeEnv.hasDims; split <;> simp [NoRec]

theorem noRec_walkPtr (S : MergeEnv) (a b c : DF) : NoRec (S.walkPtr a b c) := by
  unfold MergeEnv.walkPtr
  split
  · exact NoRec.bind (noRec_hasDims _ _) (fun _ => noRec_ok _)
  · exact noRec_ok _

theorem noRec_walkIndex (S : MergeEnv) (n : ScopeChain) (b : Bool) (p : DF) : NoRec (S.walkIndex n b p) := by
  unfold MergeEnv.walkIndex
  refine NoRec.bind (noRec_hasDims _ _) (fun d => ?_)
  repeat' split
  all_goals simp [NoRec]

theorem Dict.mem_keys_of_get? {κ α : Type} [DecidableEq κ] {d : Dict κ α} {k : κ} {v : α} (h : d.get? k = some v) :
    k ∈ d.map (·.1) := List.mem_map.mpr ⟨_, Dict.mem_of_get? h, rfl⟩

theorem filter_length_lt {α : Type} {l : List α} {p q : α → Bool} (hpq : ∀ a, p a = true → q a = true) {x : α}
    (hx : x ∈ l) (hp : p x = false) (hq : q x = true) : (l.filter p).length < (l.filter q).length := by
  induction l with
  | nil => cases hx
  | cons a l ih =>
    have hle : (l.filter p).length ≤ (l.filter q).length := by
      clear ih hx
      induction l with
      | nil => simp
      | cons b l ih =>
        simp only [List.filter_cons]
        by_cases h1 : p b = true
        · simp [h1, hpq b h1]; exact ih
        · simp [h1]; split
          · simp; omega
          · exact ih
    rcases List.mem_cons.mp hx with rfl | h
    · simp [List.filter_cons, hp, hq]; omega
    · have := ih h
      simp only [List.filter_cons]
      by_cases h1 : p a = true
      · simp [h1, hpq a h1]; exact this
      · simp [h1]; split
        · simp; omega
        · exact this

/-- The signals of the table that are not being expanded. -/
def MergeEnv.open (S : MergeEnv) (visited : List ScopeChain) : Nat :=
  ((S.terms.map (·.1)).filter (fun n => decide (n ∉ visited))).length

theorem termtype_congr {S S' : MergeEnv} (h : S.terms = S'.terms) (n : ScopeChain) : S.termtype n = S'.termtype n := by
  simp only [MergeEnv.termtype, h]
theorem hasDims_congr {S S' : MergeEnv} (h : S.terms = S'.terms) (n : ScopeChain) : S.hasDims n = S'.hasDims n := by
  simp only [MergeEnv.hasDims, h]
theorem walkIndex_congr {S S' : MergeEnv} (h : S.terms = S'.terms) (n : ScopeChain) (b : Bool) (p : DF) :
    S.walkIndex n b p = S'.walkIndex n b p := by
  simp only [MergeEnv.walkIndex, hasDims_congr h]
theorem childLsb_congr {S S' : MergeEnv} (h : S.terms = S'.terms) (t : DF) : S.childLsb t = S'.childLsb t := by
  cases t <;> simp only [MergeEnv.childLsb, MergeEnv.termByRepr, h]
theorem walkPsel_congr {S S' : MergeEnv} (h : S.terms = S'.terms) (a b c d : DF) :
    S.walkPsel a b c d = S'.walkPsel a b c d := by
  unfold MergeEnv.walkPsel; rw [childLsb_congr h]
theorem walkPtr_congr {S S' : MergeEnv} (h : S.terms = S'.terms) (a b c : DF) :
    S.walkPtr a b c = S'.walkPtr a b c := by
  cases a <;> simp only [MergeEnv.walkPtr, hasDims_congr h]
theorem clocked_congr {S S' : MergeEnv} (h : S.binds = S'.binds) (n : ScopeChain) (ty : List TermType) :
    S.clocked n ty = S'.clocked n ty := by
  simp only [MergeEnv.clocked, MergeEnv.isCombination, MergeEnv.bindlist, h]

/-- The walk settles when the trees of the signals do; the optimizer's recursion depth (the index of `S`) grows along
with that of the walk. -/
theorem walk_settles (S : Nat → MergeEnv) (hT : ∀ k, (S k).terms = (S 0).terms) (hB : ∀ k, (S k).binds = (S 0).binds)
    (hg : ∀ n p, Settles (fun k => (S k).getTree n p)) (N : Nat) :
    ∀ (visited : List ScopeChain), (S 0).open visited ≤ N → ∀ (t : DF) (step : Int) (sel : Bool) (ptr : DF) (d : Nat),
      Settles (fun k => (S (k + d)).walk k visited step sel ptr t) := by
  induction N using Nat.strong_induction_on with
  | _ N ihN =>
  intro visited hN t
  induction t using DF.ind with
  | none | intc s | fltc s | strc s | ev v w a b | undef w | hiz w =>
    intro step sel ptr d; apply Settles.succ; simp only [MergeEnv.walk]; exact Settles.ok _
  | delay n ih => intro step sel ptr d; apply Settles.succ; simp only [MergeEnv.walk]; exact Settles.const (by simp)
  | sys s ns ih => intro step sel ptr d; apply Settles.succ; simp only [MergeEnv.walk]; exact Settles.const (by simp)
  | op o ns ih =>
    intro step sel ptr d; apply Settles.succ; simp only [MergeEnv.walk, Nat.add_right_comm _ 1 d]
    exact Settles.bind (Settles.mapM (fun n hn => ih n hn _ _ _ (d + 1))) (fun a => Settles.const (noRec_mkOp _ _))
  | concat ns ih =>
    intro step sel ptr d; apply Settles.succ; simp only [MergeEnv.walk, Nat.add_right_comm _ 1 d]
    exact Settles.bind (Settles.mapM (fun n hn => ih n hn _ _ _ (d + 1))) (fun a => Settles.ok _)
  | branch c t f h1 h2 h3 =>
    intro step sel ptr d; apply Settles.succ; simp only [MergeEnv.walk, Nat.add_right_comm _ 1 d]
    exact Settles.bind (h1 _ _ _ (d + 1)) (fun _ => Settles.bind (h2 _ _ _ (d + 1)) (fun _ =>
      Settles.bind (h3 _ _ _ (d + 1)) (fun _ => Settles.ok _)))
  | psel v m l h1 h2 h3 =>
    intro step sel ptr d; apply Settles.succ
    simp only [MergeEnv.walk, Nat.add_right_comm _ 1 d, walkPsel_congr (hT _)]
    exact Settles.bind (h2 _ _ _ (d + 1)) (fun _ => Settles.bind (h3 _ _ _ (d + 1)) (fun _ =>
      Settles.bind (h1 _ _ _ (d + 1)) (fun _ => Settles.const (noRec_walkPsel _ _ _ _ _))))
  | ptr v p h1 h2 =>
    intro step sel ptr d; apply Settles.succ
    simp only [MergeEnv.walk, Nat.add_right_comm _ 1 d, walkPtr_congr (hT _)]
    exact Settles.bind (h2 _ _ _ (d + 1)) (fun _ => Settles.bind (h1 _ _ _ (d + 1)) (fun _ =>
      Settles.const (noRec_walkPtr _ _ _ _)))
  | term n =>
    intro step sel ptr d; apply Settles.succ; simp only [MergeEnv.walk, Nat.add_right_comm _ 1 d]
    by_cases hv : n ∈ visited
    · simp only [hv, if_true]; exact Settles.ok _
    simp only [hv, if_false, termtype_congr (hT _), walkIndex_congr (hT _), clocked_congr (hB _)]
    cases ht : (S 0).terms.get? n with
    | none =>
      have : (S 0).termtype n = .error .definition := by simp [MergeEnv.termtype, ht]
      simp only [this]
      exact Settles.const (by simp [Bind.bind, Except.bind])
    | some tm =>
      have : (S 0).termtype n = .ok tm.types := by simp [MergeEnv.termtype, ht]
      simp only [this, ok_bind]
      split
      · exact Settles.ok _
      refine Settles.bind (Settles.const (noRec_walkIndex _ _ _ _)) (fun i => ?_)
      cases i with
      | none => exact Settles.ok _
      | some q =>
        dsimp only
        split
        · exact Settles.ok _
        refine Settles.bind ?_ (fun t' => ?_)
        · obtain ⟨r, hr, K, hK⟩ := hg n q
          exact ⟨r, hr, K, fun k hk => hK _ (by omega)⟩
        have hlt : (S 0).open (n :: visited) < (S 0).open visited := by
          refine filter_length_lt ?_ (Dict.mem_keys_of_get? ht) ?_ ?_
          · intro a; simp
          · simp
          · simpa using hv
        exact ihN _ (by omega) _ (Nat.le_refl _) _ _ _ _ (d + 1)

mutual
theorem noRec_replaceUndefined (n : ScopeChain) : ∀ t : DF, NoRec (replaceUndefined n t)
  | .none | .undef _ | .intc _ | .fltc _ | .strc _ | .ev .. | .term _ | .hiz _ | .delay _ | .sys _ _ => by
    simp [replaceUndefined, NoRec]
  | .branch c t f => by
    simp only [replaceUndefined]
    exact NoRec.bind (noRec_replaceUndefined n c) (fun _ => NoRec.bind (noRec_replaceUndefined n t) (fun _ =>
      NoRec.bind (noRec_replaceUndefined n f) (fun _ => noRec_ok _)))
  | .psel c t f => by
    simp only [replaceUndefined]
    exact NoRec.bind (noRec_replaceUndefined n t) (fun _ => NoRec.bind (noRec_replaceUndefined n f) (fun _ =>
      NoRec.bind (noRec_replaceUndefined n c) (fun _ => noRec_ok _)))
  | .ptr v p => by
    simp only [replaceUndefined]
    exact NoRec.bind (noRec_replaceUndefined n p) (fun _ => NoRec.bind (noRec_replaceUndefined n v) (fun _ => noRec_ok _))
  | .op o ns => by
    simp only [replaceUndefined]
    exact NoRec.bind (noRec_replaceUndefinedList n ns) (fun _ => noRec_mkOp _ _)
  | .concat ns => by
    simp only [replaceUndefined]
    exact NoRec.bind (noRec_replaceUndefinedList n ns) (fun _ => noRec_ok _)
theorem noRec_replaceUndefinedList (n : ScopeChain) : ∀ ns : List DF, NoRec (replaceUndefinedList n ns)
  | [] => by simp [replaceUndefinedList, NoRec]
  | t :: ts => by
    simp only [replaceUndefinedList]
    exact NoRec.bind (noRec_replaceUndefined n t) (fun _ => NoRec.bind (noRec_replaceUndefinedList n ts) (fun _ => noRec_ok _))
end

theorem walkBind_settles (S : Nat → MergeEnv) (hT : ∀ k, (S k).terms = (S 0).terms) (hB : ∀ k, (S k).binds = (S 0).binds)
    (hg : ∀ n p, Settles (fun k => (S k).getTree n p)) (n : ScopeChain) (step : Int) :
    Settles (fun k => (S k).walkBind k n step) := by
  unfold MergeEnv.walkBind
  simp only [hT]
  refine Settles.bind (Settles.const (by split <;> simp)) (fun _ => ?_)
  refine Settles.bind (hg _ _) (fun t => ?_)
  refine Settles.bind (walk_settles S hT hB hg _ [] (Nat.le_refl _) t _ _ _ 0) (fun w => ?_)
  exact Settles.const (noRec_replaceUndefined _ _)

/-- **C33**: walking terminates, whatever the dependencies (combinational loops, registers feeding themselves) and
whatever the step count: from some recursion depth on the outcome is the same, a tree or an exception that is not
"recursion too deep".  Hypothesis: building the tree of a single signal does not itself recurse too deeply (this is
the optimizer's recursion, not the walk; see C33_walk_terminates for the real optimizer). -/
theorem C33_walk_terminates_any (S : MergeEnv) (hg : ∀ n p, S.getTree n p ≠ .error .recursion) (n : ScopeChain)
    (step : Int) :
    ∃ r, r ≠ .error .recursion ∧ ∃ K, ∀ k ≥ K, S.walkBind k n step = r :=
  walkBind_settles (fun _ => S) (fun _ => rfl) (fun _ => rfl) (fun n p => Settles.const (hg n p)) n step

end Pyv
