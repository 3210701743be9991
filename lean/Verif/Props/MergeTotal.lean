import Verif.Props.OptTotal
import Verif.Props.ElementTree
/-
  C33 for the modelled optimizer: building the tree of a signal terminates, hence walking does.
-/
namespace Pyv

/-- A family of environments indexed by the recursion depth of the optimizer, whose functions settle. -/
structure MergeFam (S : Nat → MergeEnv) : Prop where
  terms : ∀ k, (S k).terms = (S 0).terms
  binds : ∀ k, (S k).binds = (S 0).binds
  rbinds : ∀ k, (S k).rbinds = (S 0).rbinds
  opt : ∀ t, Settles (fun k => (S k).opt t)
  optc : ∀ t, Settles (fun k => (S k).optc t)
  reo : ∀ t, Settles (fun k => (S k).reo t)

variable {S : Nat → MergeEnv}

theorem hasDims_settles (F : MergeFam S) (n : ScopeChain) : Settles (fun k => (S k).hasDims n) := by
  simp only [hasDims_congr (F.terms _)]; exact Settles.nr (noRec_hasDims _ _)

theorem termRange_settles (F : MergeFam S) (n : ScopeChain) : Settles (fun k => (S k).termRange n) := by
  simp only [MergeEnv.termRange, F.terms]
  split
  · exact Settles.const (by simp)
  · exact Settles.bind (F.optc _) (fun _ => Settles.bind (F.optc _) (fun _ => Settles.ok _))

theorem splitBind_settles (F : MergeFam S) (b : Bind) (p : Int) : Settles (fun k => (S k).splitBind b p) := by
  unfold MergeEnv.splitBind
  refine Settles.bind (F.optc _) (fun m => Settles.bind (F.optc _) (fun l => Settles.bind (F.optc _) (fun q =>
    Settles.bind ?_ (fun r => Settles.bind ?_ (fun r => ?_)))))
  · unfold MergeEnv.rangeA
    exact Settles.ite (Settles.bind (hasDims_settles F _) (fun _ => Settles.ite (Settles.const (by simp)) (Settles.ok _)))
      (Settles.ok _)
  · unfold MergeEnv.rangeB
    exact Settles.ite (termRange_settles F _) (Settles.ok _)
  · obtain ⟨m, l⟩ := r
    dsimp only
    refine Settles.bind (Settles.nr (noRec_intAttr _)) (fun _ => Settles.ite ?_ (Settles.ok _))
    refine Settles.bind (Settles.nr (noRec_intAttr _)) (fun _ => Settles.ite ?_ (Settles.ok _))
    exact Settles.bind (F.reo _) (fun _ => Settles.bind (F.reo _) (fun _ => Settles.bind (F.opt _) (fun _ =>
      Settles.bind (F.opt _) (fun _ => Settles.ok _))))

theorem splitBindPositions_settles (F : MergeFam S) (ps : List Int) (b : Bind) :
    Settles (fun k => (S k).splitBindPositions b ps) := by
  induction ps generalizing b with
  | nil => simp only [MergeEnv.splitBindPositions]; exact Settles.ok _
  | cons p ps ih =>
    simp only [MergeEnv.splitBindPositions]
    exact Settles.bind (splitBind_settles F _ _) (fun r => Settles.bind (ih _) (fun _ => Settles.ok _))

theorem splitBindlist_settles (F : MergeFam S) (ps : List Int) (bs : List Bind) :
    Settles (fun k => (S k).splitBindlist ps bs) := by
  induction bs with
  | nil => simp only [MergeEnv.splitBindlist]; exact Settles.ok _
  | cons b bs ih =>
    simp only [MergeEnv.splitBindlist]
    exact Settles.bind (splitBindPositions_settles F _ _) (fun _ => Settles.bind ih (fun _ => Settles.ok _))

theorem noRec_splitStep (a b : Int) (c : Option Int) (st : List Int × List Rng) : NoRec (splitStep a b c st) := by
  unfold splitStep
  refine NoRec.bind ?_ (fun _ => noRec_ok _)
  unfold positionsFromRange
  exact noRec_if (noRec_err (by simp)) (noRec_ok _)

theorem splitRound_settles (F : MergeFam S) (st : List Int × List Rng) (b : Bind) :
    Settles (fun k => (S k).splitRound st b) := by
  unfold MergeEnv.splitRound
  refine Settles.bind (F.optc _) (fun p => Settles.bind (F.optc _) (fun m => Settles.bind (F.optc _) (fun l =>
    Settles.bind ?_ (fun r => ?_))))
  · unfold MergeEnv.constRange
    exact Settles.ite (termRange_settles F _) (Settles.ite (Settles.ok _) (Settles.const (by simp)))
  · dsimp only
    split
    · exact Settles.nr (NoRec.bind (noRec_intAttr _) (fun _ => NoRec.bind (noRec_intAttr _) (fun _ => noRec_splitStep _ _ _ _)))
    · exact Settles.nr (NoRec.bind (noRec_intAttr _) (fun _ => NoRec.bind (noRec_intAttr _) (fun _ =>
        NoRec.bind (noRec_toInt _) (fun _ => noRec_splitStep _ _ _ _))))
    · exact Settles.ok _

theorem splitPositions_settles (F : MergeFam S) (bs : List Bind) : Settles (fun k => (S k).splitPositions bs) := by
  unfold MergeEnv.splitPositions
  refine Settles.bind ?_ (fun _ => Settles.ok _)
  generalize (([], []) : List Int × List Rng) = st
  induction bs generalizing st with
  | nil => simp only [List.foldlM_nil]; exact Settles.ok _
  | cons b bs ih => simp only [List.foldlM_cons]; exact Settles.bind (splitRound_settles F _ _) (fun _ => ih _)

theorem noRec_constPtr (b : Bind) : NoRec b.constPtr := by
  unfold Bind.constPtr
  split
  · exact NoRec.bind (noRec_toInt _) (fun _ => noRec_ok _)
  · exact noRec_ok _

theorem bindKey_settles (F : MergeFam S) (b : Bind) : Settles (fun k => (S k).bindKey b) := by
  unfold MergeEnv.bindKey
  simp only [F.terms]
  refine Settles.bind (Settles.nr (noRec_if (noRec_ok _) (noRec_intAttr _))) (fun _ => Settles.bind
    (Settles.nr (noRec_constPtr _)) (fun _ => ?_))
  split
  · exact Settles.const (by simp)
  · exact Settles.bind (F.opt _) (fun _ => Settles.bind (Settles.nr (noRec_intAttr _)) (fun _ => Settles.bind (F.opt _)
      (fun _ => Settles.bind (Settles.nr (noRec_intAttr _)) (fun _ => Settles.ok _))))

theorem sortBinds_settles (F : MergeFam S) (bs : List Bind) : Settles (fun k => (S k).sortBinds bs) := by
  unfold MergeEnv.sortBinds
  exact Settles.bind (Settles.mapM (fun b _ => bindKey_settles F b)) (fun _ => Settles.ok _)

theorem noRec_sameRange (a b : Bind) : NoRec (sameRange a b) := by
  have h : NoRec (sameRange.go a b) := by
    unfold sameRange.go
    refine noRec_if (noRec_ok _) (NoRec.bind (noRec_valueAttr _) (fun _ => NoRec.bind (noRec_valueAttr _) (fun _ =>
      noRec_if ?_ (noRec_ok _))))
    exact NoRec.bind (noRec_valueAttr _) (fun _ => NoRec.bind (noRec_valueAttr _) (fun _ => noRec_ok _))
  unfold sameRange
  split
  · exact noRec_if (noRec_ok _) h
  · exact h

theorem mergeTree_settles (F : MergeFam S) (a b : DF) : Settles (fun k => mergeTree (S k).opt a b) := by
  induction a using DF.ind generalizing b with
  | branch c t f h1 h2 h3 =>
    cases b with
    | branch c2 t2 f2 =>
      simp only [mergeTree]
      refine Settles.bind (F.opt _) (fun _ => Settles.bind (F.opt _) (fun _ => Settles.ite ?_ (Settles.ok _)))
      exact Settles.bind (h2 _) (fun _ => Settles.bind (h3 _) (fun _ => Settles.ok _))
    | none => simp only [mergeTree]; exact Settles.ok _
    | _ => simp only [mergeTree]; exact Settles.bind (F.opt _) (fun _ => Settles.ok _)
  | none => cases b <;> simp only [mergeTree] <;> exact Settles.ok _
  | _ =>
    cases b <;> simp only [mergeTree] <;> first | exact Settles.ok _ | exact Settles.bind (F.opt _) (fun _ => Settles.ok _)

theorem mergeLoop_settles (F : MergeFam S) (bs acc : List Bind) (last : Option Bind) :
    Settles (fun k => (S k).mergeLoop acc last bs) := by
  induction bs generalizing acc last with
  | nil => simp only [MergeEnv.mergeLoop]; exact Settles.ok _
  | cons b bs ih =>
    cases last with
    | none => simp only [MergeEnv.mergeLoop]; exact ih _ _
    | some l =>
      simp only [MergeEnv.mergeLoop]
      refine Settles.bind (Settles.nr (noRec_sameRange _ _)) (fun _ => Settles.ite ?_ (ih _ _))
      exact Settles.bind (mergeTree_settles F _ _) (fun _ => Settles.bind (F.opt _) (fun _ => ih _ _))

theorem optimizedBindlist_settles (F : MergeFam S) (bs : List Bind) : Settles (fun k => (S k).optimizedBindlist bs) := by
  unfold MergeEnv.optimizedBindlist
  refine Settles.ite (Settles.ok _) (Settles.bind (Settles.mapM (fun b _ => ?_)) (fun ns => Settles.ite (Settles.ok _) ?_))
  · unfold MergeEnv.optBind
    exact Settles.bind (F.opt _) (fun _ => Settles.bind (F.opt _) (fun _ => Settles.bind (F.opt _) (fun _ =>
      Settles.bind (F.opt _) (fun _ => Settles.ok _))))
  · refine Settles.bind (splitPositions_settles F _) (fun _ => Settles.bind (splitBindlist_settles F _ _) (fun _ => ?_))
    unfold MergeEnv.mergeBindlist
    exact Settles.bind (sortBinds_settles F _) (fun _ => mergeLoop_settles F _ _ _)

theorem noRec_mergedLoop (bs : List Bind) (a b : Int) (o : List DF) : NoRec (mergedLoop bs a b o) := by
  induction bs generalizing a b o with
  | nil => exact noRec_ok _
  | cons x bs ih =>
    simp only [mergedLoop]
    refine NoRec.bind (noRec_if (noRec_ok _) (noRec_intAttr _)) (fun _ => NoRec.bind (noRec_constPtr _) (fun _ =>
      noRec_if (ih _ _ _) (NoRec.bind (noRec_if (noRec_ok _) (noRec_intAttr _)) (fun _ => ih _ _ _))))

theorem mergedTree_settles (F : MergeFam S) (bs : List Bind) : Settles (fun k => (S k).mergedTree bs) := by
  unfold MergeEnv.mergedTree
  exact Settles.bind (sortBinds_settles F _) (fun _ => Settles.bind (Settles.nr (noRec_mergedLoop _ _ _ _)) (fun _ => Settles.ok _))

theorem elementTree_settles (F : MergeFam S) (d : Dict (Option PyVal) (List Bind)) (v : PyVal) :
    Settles (fun k => (S k).elementTree d v) := by
  unfold MergeEnv.elementTree
  split
  · exact Settles.const (by simp)
  · exact Settles.ok _
  · exact mergedTree_settles F _

theorem elementChain_settles (F : MergeFam S) (d : Dict (Option PyVal) (List Bind)) (p : DF) (cs : List Int) (r : DF) :
    Settles (fun k => (S k).elementChain d p cs r) := by
  induction cs generalizing r with
  | nil => simp only [MergeEnv.elementChain]; exact Settles.ok _
  | cons c cs ih =>
    simp only [MergeEnv.elementChain]
    exact Settles.bind (elementTree_settles F _ _) (fun _ => Settles.bind (Settles.nr (noRec_mkOp _ _)) (fun _ => ih _))

theorem getTree_settles (F : MergeFam S) (n : ScopeChain) (p : DF) : Settles (fun k => (S k).getTree n p) := by
  unfold MergeEnv.getTree
  simp only [F.rbinds]
  refine Settles.bind (optimizedBindlist_settles F _) (fun bs => Settles.ite (Settles.ok _) ?_)
  refine Settles.bind (hasDims_settles F _) (fun d => Settles.ite ?_ ?_)
  · refine Settles.ite (Settles.ok _) ?_
    split
    · exact elementTree_settles F _ _
    · refine Settles.bind (Settles.nr (noRec_mapM (fun x _ => ?_))) (fun _ => elementChain_settles F _ _ _ _)
      cases x with
      | none => exact noRec_err (by simp)
      | some v => exact noRec_toInt v
  · split
    · exact Settles.ok _
    · exact Settles.bind (mergedTree_settles F _) (fun _ => F.opt _)

theorem mergeFam_real {ctx : OptCtx} (h : ctx.BoundsAcyclic) (level : Nat) (binds rbinds : Dict ScopeChain (List Bind)) :
    MergeFam (fun k => mergeEnvOf ctx k level binds rbinds) where
  terms _ := rfl
  binds _ := rfl
  rbinds _ := rfl
  opt t := optimize_settles h level t
  optc t := optConst_settles h t
  reo t := C16_reorder_terminates t

/-- **C33** with the modelled optimizer: `walkBind` terminates on every design (any dependencies between the signals:
combinational loops, registers feeding themselves), for every signal and step count, unless the declared range of a
parameter depends on the parameter itself. -/
theorem C33_walk_terminates (ctx : OptCtx) (h : ctx.BoundsAcyclic) (level : Nat)
    (binds rbinds : Dict ScopeChain (List Bind)) (n : ScopeChain) (step : Int) :
    ∃ r, r ≠ .error .recursion ∧ ∃ K, ∀ k ≥ K, (mergeEnvOf ctx k level binds rbinds).walkBind k n step = r :=
  walkBind_settles _ (fun _ => rfl) (fun _ => rfl) (getTree_settles (mergeFam_real h level binds rbinds)) n step

/-! ### witnesses -/

def c33n (c : Char) : ScopeChain := [⟨['m'], .module, none⟩, ⟨[c], .signal, none⟩]
def c33t (c : Char) (ts : List TermType) : ScopeChain × Term := (c33n c, ⟨c33n c, ts, .intc ['3'], .intc ['0'], none⟩)
def c33b (c : Char) (t : DF) (a : Option AlwaysInfo) : ScopeChain × List Bind :=
  (c33n c, [{ tree := t, dest := c33n c, msb := .none, lsb := .none, ptr := .none, always := a }])
def c33clk : Option AlwaysInfo := some { clockName := some (c33n 'k'), clockEdge := some "posedge".toList }

def c33terms : Dict ScopeChain Term :=
  [c33t 'x' [.wire], c33t 'y' [.wire], c33t 'r' [.reg], c33t 'a' [.input], c33t 'z' [.wire]]
/-- `assign x = y & a; assign y = x | r; always @(posedge k) r <= r ^ z; assign z = r`. -/
def c33binds : Dict ScopeChain (List Bind) :=
  [c33b 'x' (.op .and [.term (c33n 'y'), .term (c33n 'a')]) none,
   c33b 'y' (.op .or [.term (c33n 'x'), .term (c33n 'r')]) none,
   c33b 'r' (.op .xor [.term (c33n 'r'), .term (c33n 'z')]) c33clk,
   c33b 'z' (.term (c33n 'r')) none]
def c33ctx : OptCtx := ⟨c33terms, [], 32, fun _ => none⟩

theorem c33acyclic : c33ctx.BoundsAcyclic := ⟨fun _ => 0, fun n c tm hc => by simp [c33ctx, Dict.get?] at hc⟩

/-- Non-vacuity of C33: a combinational loop through `x` and `y` (walked from `z`'s side too), with the register `r`
left alone at step 0 and expanded once at step 1. -/
example : c33ctx.BoundsAcyclic ∧
    (mergeEnvOf c33ctx 20 1 c33binds c33binds).walkBind 20 (c33n 'x') 0 =
      .ok (.op .and [.op .or [.op .and [.term (c33n 'y'), .term (c33n 'a')], .term (c33n 'r')], .term (c33n 'a')]) ∧
    (mergeEnvOf c33ctx 20 1 c33binds c33binds).walkBind 20 (c33n 'z') 1 =
      .ok (.op .xor [.term (c33n 'r'), .term (c33n 'r')]) := ⟨c33acyclic, by decide +kernel, by decide +kernel⟩

end Pyv
