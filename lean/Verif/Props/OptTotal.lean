import Verif.Props.WalkTotal
/-
  C51: simplification terminates; C33 for the modelled optimizer.
-/
namespace Pyv

/-- SPECIFICATION: the declared range of a parameter does not depend, directly or through other parameters, on the
parameter itself. -/
def OptCtx.BoundsAcyclic (ctx : OptCtx) : Prop :=
  ∃ rank : ScopeChain → Nat, ∀ n c tm, ctx.consts.get? n = some c → ctx.terms.get? n = some tm →
    ∀ m ∈ tm.msb.terms ++ tm.lsb.terms, rank m < rank n

theorem noRec_dictGet {κ α : Type} [DecidableEq κ] (d : Dict κ α) (k : κ) : NoRec (d.get k) := by
  unfold Dict.get; split <;> simp [NoRec]

theorem noRec_valueAttr (t : DF) : NoRec t.valueAttr := by cases t <;> simp [DF.valueAttr, NoRec]

theorem noRec_intAttr (t : DF) : NoRec t.intAttr := NoRec.bind (noRec_valueAttr _) (fun _ => noRec_toInt _)

theorem noRec_if {α : Type} {p : Prop} [Decidable p] {x y : Py α} (hx : NoRec x) (hy : NoRec y) :
    NoRec (if p then x else y) := by split <;> assumption

theorem noRec_err {α : Type} {e : PyErr} (h : e ≠ .recursion) : NoRec (.error e : Py α) := by simpa [NoRec] using h

theorem noRec_intConstWidth (s : Str) : NoRec (intConstWidth s) := by
  unfold intConstWidth
  dsimp only
  repeat' split
  all_goals first | exact noRec_pyIntOf _ _ | exact noRec_ok _

theorem noRec_truncDivNat (n d : Nat) : NoRec (truncDivNat n d) := by
  unfold truncDivNat
  dsimp only
  repeat' split
  all_goals first | exact noRec_ok _ | exact noRec_err (by simp)

theorem noRec_evalOpInt (o : Op) (vs : List Int) (w : Int) : NoRec (evalOpInt o vs w) := by
  unfold evalOpInt
  dsimp only
  split
  all_goals
    first
    | exact noRec_ok _
    | exact noRec_err (by simp)
    | skip
  all_goals
    refine NoRec.bind ?_ (fun _ => noRec_ok _)
    first
    | (unfold pyPow; repeat' split) <;> first | exact noRec_ok _ | exact noRec_err (by simp)
    | (unfold pyMod; repeat' split) <;> first | exact noRec_ok _ | exact noRec_err (by simp)
    | (unfold pyShl; repeat' split) <;> first | exact noRec_ok _ | exact noRec_err (by simp)
    | (unfold pyShr; repeat' split) <;> first | exact noRec_ok _ | exact noRec_err (by simp)
    | (unfold pyDivTrunc; split
       · exact noRec_err (by simp)
       · exact NoRec.bind (noRec_truncDivNat _ _) (fun _ => noRec_ok _))

theorem noRec_evInts (ns : List DF) : NoRec (evInts ns) := by
  induction ns with
  | nil => exact noRec_ok _
  | cons n ns ih => exact NoRec.bind (noRec_intAttr _) (fun _ => NoRec.bind ih (fun _ => noRec_ok _))

theorem noRec_evMaxWidth (ns : List DF) (w : Int) : NoRec (evMaxWidth w ns) := by
  induction ns generalizing w with
  | nil => exact noRec_ok _
  | cons n ns ih =>
    unfold evMaxWidth
    split
    · simp [NoRec]
    · rename_i h; cases h; exact ih _
    · exact noRec_err (by simp)

theorem noRec_evalOperator (o : Op) (ns : List DF) : NoRec (evalOperator o ns) :=
  NoRec.bind (noRec_evMaxWidth _ _) (fun _ => NoRec.bind (noRec_evInts _) (fun _ =>
    NoRec.bind (noRec_evalOpInt _ _ _) (fun _ => noRec_ok _)))

theorem noRec_pyShl (a b : Int) : NoRec (pyShl a b) := noRec_if (noRec_err (by simp)) (noRec_ok _)
theorem noRec_pyShr (a b : Int) : NoRec (pyShr a b) := noRec_if (noRec_err (by simp)) (noRec_ok _)

theorem noRec_evalConcat (ctx : OptCtx) (ns : List DF) : NoRec (ctx.evalConcat ns) := by
  unfold OptCtx.evalConcat
  generalize (0 : Int) = a
  generalize (a : Int) = b at *
  suffices h : ∀ a b, NoRec (ctx.evalConcatAux a b ns) from h _ _
  clear a b
  induction ns with
  | nil => intro a b; exact noRec_ok _
  | cons n ns ih => intro a b; exact NoRec.bind (noRec_pyShl _ _) (fun _ => NoRec.bind (noRec_intAttr _) (fun _ => ih _ _))

theorem noRec_isCondTrue (t : DF) : NoRec (isCondTrue t) := by
  unfold isCondTrue; split <;> first | exact noRec_ok _ | exact noRec_err (by simp)

theorem noRec_evalPartselect (v m l : DF) : NoRec (evalPartselect v m l) :=
  NoRec.bind (noRec_intAttr _) (fun _ => NoRec.bind (noRec_intAttr _) (fun _ => NoRec.bind (noRec_intAttr _) (fun _ =>
    NoRec.bind (noRec_pyShr _ _) (fun _ => noRec_if (noRec_err (by simp)) (noRec_ok _)))))

theorem Settles.ite {α : Type} {p : Prop} [Decidable p] {f g : Nat → Py α} (hf : Settles f) (hg : Settles g) :
    Settles (fun k => if p then f k else g k) := by
  by_cases h : p
  · simp only [h, if_true]; exact hf
  · simp only [h, if_false]; exact hg

theorem Settles.nr {α : Type} {x : Py α} (h : NoRec x) : Settles (fun _ => x) := Settles.const h

theorem optConst_settles_rank (ctx : OptCtx) (rank : ScopeChain → Nat)
    (hr : ∀ n c tm, ctx.consts.get? n = some c → ctx.terms.get? n = some tm →
      ∀ m ∈ tm.msb.terms ++ tm.lsb.terms, rank m < rank n) (R : Nat) :
    ∀ t : DF, (∀ m ∈ t.terms, rank m < R) → Settles (fun k => ctx.optConst k t) := by
  induction R with
  | zero | succ R ihR =>
  intro t
  induction t using DF.ind with
  | none | ev v w a b | undef w | hiz w | fltc s | strc s | delay n ih =>
    intro _; apply Settles.succ; simp only [OptCtx.optConst]; exact Settles.const (by simp)
  | intc s =>
    intro _; apply Settles.succ; simp only [OptCtx.optConst]
    refine Settles.nr (noRec_if ?_ ?_)
    · exact NoRec.bind (noRec_intConstWidth _) (fun _ => noRec_ok _)
    · exact NoRec.bind (noRec_intConstEval _) (fun _ => NoRec.bind (noRec_intConstWidth _) (fun _ => noRec_ok _))
  | op o ns ih =>
    intro h; apply Settles.succ; simp only [OptCtx.optConst]
    refine Settles.bind (Settles.mapM (fun n hn => ih n hn (fun m hm => h m ?_))) (fun a => Settles.ite
      (Settles.nr (noRec_evalOperator _ _)) (Settles.nr (noRec_mkOp _ _)))
    exact DF.mem_termsList.mpr ⟨n, hn, hm⟩
  | concat ns ih =>
    intro h; apply Settles.succ; simp only [OptCtx.optConst]
    refine Settles.bind (Settles.mapM (fun n hn => ih n hn (fun m hm => h m ?_))) (fun a => Settles.ite
      (Settles.nr (noRec_evalConcat _ _)) (Settles.ok _))
    exact DF.mem_termsList.mpr ⟨n, hn, hm⟩
  | sys s ns ih =>
    intro h; apply Settles.succ; simp only [OptCtx.optConst]
    refine Settles.bind (Settles.mapM (fun n hn => ih n hn (fun m hm => h m ?_))) (fun a => Settles.ok _)
    exact DF.mem_termsList.mpr ⟨n, hn, hm⟩
  | branch c t f h1 h2 h3 =>
    intro h; simp only [DF.terms, List.mem_append] at h
    apply Settles.succ; simp only [OptCtx.optConst]
    refine Settles.bind (h1 (fun m hm => h m (by simp [hm]))) (fun _ => Settles.bind (h2 (fun m hm => h m (by simp [hm])))
      (fun _ => Settles.bind (h3 (fun m hm => h m (by simp [hm]))) (fun _ => Settles.ite ?_ (Settles.ok _))))
    exact Settles.nr (NoRec.bind (noRec_isCondTrue _) (fun _ => noRec_ok _))
  | psel v m l h1 h2 h3 =>
    intro h; simp only [DF.terms, List.mem_append] at h
    apply Settles.succ; simp only [OptCtx.optConst]
    exact Settles.bind (h1 (fun m hm => h m (by simp [hm]))) (fun _ => Settles.bind (h2 (fun m hm => h m (by simp [hm])))
      (fun _ => Settles.bind (h3 (fun m hm => h m (by simp [hm]))) (fun _ =>
        Settles.ite (Settles.nr (noRec_evalPartselect _ _ _)) (Settles.ok _))))
  | ptr v p h1 h2 =>
    intro h; simp only [DF.terms, List.mem_append] at h
    apply Settles.succ; simp only [OptCtx.optConst]
    split
    · refine Settles.bind (Settles.nr (noRec_dictGet _ _)) (fun tm => Settles.bind (h1 (fun m hm => h m (by simp [hm])))
        (fun v' => Settles.bind (h2 (fun m hm => h m (by simp [hm]))) (fun p' => ?_)))
      split
      · exact Settles.ok _
      · exact Settles.nr (noRec_if (noRec_err (by simp)) (noRec_ok _))
    · exact Settles.ok _
  | term n =>
    intro h
    have hn : rank n < _ := h n (by simp [DF.terms])
    apply Settles.succ; simp only [OptCtx.optConst]
    cases hc : ctx.consts.get? n with
    | none => exact Settles.ok _
    | some c =>
      dsimp only
      first
      | exact absurd hn (Nat.not_lt_zero _)
      | cases ht : ctx.terms.get? n with
        | none => simp only [Dict.get, ht]; exact Settles.const (by simp [Bind.bind, Except.bind])
        | some tm =>
          have hb := hr n c tm hc ht
          simp only [Dict.get, ht, ok_bind]
          cases c with
          | ev v w a b =>
            dsimp only
            refine Settles.ite ?_ (Settles.ok _)
            refine Settles.bind (ihR _ (fun m hm => ?_)) (fun m' => Settles.bind (ihR _ (fun m hm => ?_)) (fun l' =>
              Settles.ite ?_ (Settles.ok _)))
            · have := hb m (by simp [hm]); omega
            · have := hb m (by simp [hm]); omega
            · exact Settles.nr (NoRec.bind (noRec_intAttr _) (fun _ => NoRec.bind (noRec_intAttr _) (fun _ => noRec_ok _)))
          | _ => exact Settles.const (by simp)

theorem exists_bound (rank : ScopeChain → Nat) (l : List ScopeChain) : ∃ R, ∀ m ∈ l, rank m < R := by
  induction l with
  | nil => exact ⟨0, by simp⟩
  | cons a l ih =>
    obtain ⟨R, hR⟩ := ih
    refine ⟨max R (rank a + 1), fun m hm => ?_⟩
    rcases List.mem_cons.mp hm with e | h
    · rw [e]; omega
    · have := hR m h; omega

theorem optConst_settles {ctx : OptCtx} (h : ctx.BoundsAcyclic) (t : DF) : Settles (fun k => ctx.optConst k t) := by
  obtain ⟨rank, hr⟩ := h
  obtain ⟨R, hR⟩ := exists_bound rank t.terms
  exact optConst_settles_rank ctx rank hr R t hR

theorem boundsWidth_settles {ctx : OptCtx} (h : ctx.BoundsAcyclic) (m l : DF) :
    Settles (fun k => ctx.boundsWidth k m l) := by
  unfold OptCtx.boundsWidth
  exact Settles.bind (optConst_settles h m) (fun _ => Settles.bind (Settles.nr (noRec_intAttr _)) (fun _ =>
    Settles.bind (optConst_settles h l) (fun _ => Settles.bind (Settles.nr (noRec_intAttr _)) (fun _ => Settles.ok _))))

theorem getWidths_settles_of {ctx : OptCtx} {ns : List DF} (h : ∀ n ∈ ns, Settles (fun k => ctx.getWidth k n)) :
    Settles (fun k => ctx.getWidths k ns) := by
  induction ns with
  | nil => simp only [OptCtx.getWidths]; exact Settles.ok _
  | cons n ns ih =>
    simp only [OptCtx.getWidths]
    exact Settles.bind (h n (by simp)) (fun _ => Settles.bind (ih (fun m hm => h m (by simp [hm]))) (fun _ => Settles.ok _))

theorem getWidth_settles {ctx : OptCtx} (h : ctx.BoundsAcyclic) (t : DF) : Settles (fun k => ctx.getWidth k t) := by
  induction t using DF.ind with
  | none | ev v w a b | undef w | hiz w | fltc s | strc s | delay n ih | sys s ns ih =>
    simp only [OptCtx.getWidth]; exact Settles.const (by simp)
  | intc s => simp only [OptCtx.getWidth]; exact Settles.nr (noRec_intConstWidth _)
  | term n =>
    simp only [OptCtx.getWidth]
    exact Settles.bind (Settles.nr (noRec_dictGet _ _)) (fun _ => boundsWidth_settles h _ _)
  | branch c t f h1 h2 h3 =>
    simp only [OptCtx.getWidth]
    exact Settles.bind h2 (fun _ => Settles.bind h3 (fun _ => Settles.ok _))
  | psel v m l h1 h2 h3 => simp only [OptCtx.getWidth]; exact boundsWidth_settles h _ _
  | op o ns ih =>
    simp only [OptCtx.getWidth]
    exact Settles.ite (Settles.ok _) (Settles.ite (Settles.ok _) (Settles.bind (getWidths_settles_of ih) (fun _ => Settles.ok _)))
  | concat ns ih =>
    simp only [OptCtx.getWidth]
    exact Settles.bind (getWidths_settles_of ih) (fun _ => Settles.ok _)
  | ptr v p h1 h2 =>
    simp only [OptCtx.getWidth]
    split
    · refine Settles.bind (Settles.nr (noRec_dictGet _ _)) (fun tm => ?_)
      split
      · exact boundsWidth_settles h _ _
      · exact Settles.ok _
    · exact Settles.ok _

theorem getWidths_settles {ctx : OptCtx} (h : ctx.BoundsAcyclic) (ns : List DF) : Settles (fun k => ctx.getWidths k ns) :=
  getWidths_settles_of (fun n _ => getWidth_settles h n)

theorem takeLoop_settles {ctx : OptCtx} (h : ctx.BoundsAcyclic) (a b : Int) (l : List (Int × DF)) (st : TakeSt) :
    Settles (fun k => ctx.takeLoop k a b l st) := by
  induction l generalizing st with
  | nil => simp only [OptCtx.takeLoop]; exact Settles.ok _
  | cons x l ih =>
    obtain ⟨w, n⟩ := x
    simp only [OptCtx.takeLoop]
    refine Settles.bind ?_ (fun st => Settles.ite (Settles.ok _) (ih _))
    unfold OptCtx.takeUse
    exact Settles.ite (Settles.bind (optConst_settles h _) (fun _ => Settles.ok _)) (Settles.ok _)

theorem noRec_headIdx (l : List Int) : NoRec (headIdx l) := by cases l <;> simp [headIdx, NoRec]

theorem takeCut_settles {ctx : OptCtx} (h : ctx.BoundsAcyclic) (a b : Int) (t c : Nat) (ws : List Int) (l : List DF) :
    Settles (fun k => ctx.takeCut k a b t c ws l) := by
  induction l generalizing c ws with
  | nil => simp only [OptCtx.takeCut]; exact Settles.ok _
  | cons x l ih =>
    simp only [OptCtx.takeCut]
    exact Settles.bind (Settles.nr (noRec_headIdx _)) (fun _ => Settles.bind (optConst_settles h _) (fun _ =>
      Settles.bind (ih _ _) (fun _ => Settles.ok _)))

theorem takePart_settles {ctx : OptCtx} (h : ctx.BoundsAcyclic) (ns : List DF) (m l : DF) :
    Settles (fun k => ctx.takePart k ns m l) := by
  unfold OptCtx.takePart
  refine Settles.bind (getWidths_settles h _) (fun ws => Settles.bind (Settles.nr (noRec_intAttr _)) (fun mv =>
    Settles.bind (Settles.nr (noRec_intAttr _)) (fun lv => ?_)))
  dsimp only
  refine Settles.bind (takeLoop_settles h _ _ _ _) (fun st => ?_)
  cases st.used with
  | nil => exact Settles.ok _
  | cons u us =>
    dsimp only
    refine Settles.ite (Settles.ite (Settles.ok _) (Settles.ite (Settles.ok _) (Settles.ok _))) (Settles.ite
      (Settles.ite (Settles.ok _) (Settles.ok _)) (Settles.ite (Settles.ok _) ?_))
    exact Settles.bind (takeCut_settles h _ _ _ _ _ _) (fun _ => Settles.ok _)

theorem noRec_replaceOperator (ctx : OptCtx) (t : DF) : NoRec (ctx.replaceOperator t) := by
  unfold OptCtx.replaceOperator
  repeat' split
  all_goals first | exact noRec_ok _ | exact noRec_mkOp _ _ | exact noRec_err (by simp)

theorem noRec_mergeIdenticalNodes (t : DF) : NoRec (mergeIdenticalNodes t) := by
  unfold mergeIdenticalNodes
  repeat' split
  all_goals first | exact noRec_ok _ | exact noRec_err (by simp)

theorem mergeStaticNodes_settles {ctx : OptCtx} (h : ctx.BoundsAcyclic) (t : DF) :
    Settles (fun k => ctx.mergeStaticNodes k t) := by
  unfold OptCtx.mergeStaticNodes
  repeat' first | split | exact Settles.ok _ | exact Settles.const (by simp) | apply Settles.bind (getWidth_settles h _) | intro w

mutual
theorem noRec_tocode (d : Str) : ∀ t : DF, NoRec (t.tocode d)
  | .none | .intc _ | .fltc _ | .strc _ | .undef _ | .hiz _ | .term _ | .delay _ => by simp [DF.tocode, NoRec]
  | .ev v w a b => by
    simp only [DF.tocode]; repeat' split
    all_goals simp [NoRec]
  | .op o ns => by
    simp only [DF.tocode]
    refine NoRec.bind (noRec_tocodeList d ns) (fun cs => ?_)
    split <;> simp [NoRec]
  | .psel v m l => by
    simp only [DF.tocode]
    exact NoRec.bind (noRec_tocode d v) (fun _ => NoRec.bind (noRec_tocode d m) (fun _ => NoRec.bind (noRec_tocode d l)
      (fun _ => noRec_if (noRec_ok _) (noRec_ok _))))
  | .ptr v p => by
    simp only [DF.tocode]
    exact NoRec.bind (noRec_tocode d v) (fun _ => NoRec.bind (noRec_tocode d p) (fun _ => noRec_ok _))
  | .concat ns => by
    simp only [DF.tocode]
    exact NoRec.bind (noRec_tocodeList d ns) (fun cs => noRec_ok _)
  | .sys s ns => by
    simp only [DF.tocode]
    exact NoRec.bind (noRec_tocodeList d ns) (fun cs => noRec_ok _)
  | .branch c t f => by
    have h1 := noRec_tocode d c
    have h2 := noRec_tocode d t
    have h3 := noRec_tocode d f
    unfold DF.tocode
    dsimp only
    split <;> split <;> split <;>
      repeat' first
      | exact noRec_ok _
      | exact h1
      | exact h2
      | exact h3
      | refine NoRec.bind ?_ (fun _ => ?_)
theorem noRec_tocodeList (d : Str) : ∀ ns : List DF, NoRec (DF.tocodeList d ns)
  | [] => by simp [DF.tocodeList, NoRec]
  | t :: ts => by
    simp only [DF.tocodeList]
    exact NoRec.bind (noRec_tocode d t) (fun _ => NoRec.bind (noRec_tocodeList d ts) (fun _ => noRec_ok _))
end

theorem noRec_mapM {α β : Type} {f : α → Py β} {ns : List α} (h : ∀ n ∈ ns, NoRec (f n)) : NoRec (ns.mapM f) := by
  induction ns with
  | nil => exact noRec_ok _
  | cons n ns ih =>
    rw [List.mapM_cons]
    exact NoRec.bind (h n (by simp)) (fun _ => NoRec.bind (ih (fun m hm => h m (by simp [hm]))) (fun _ => noRec_ok _))

theorem noRec_sortByCode (ns : List DF) : NoRec (sortByCode ns) :=
  NoRec.bind (noRec_mapM (fun n _ => NoRec.bind (noRec_tocode _ n) (fun _ => noRec_ok _))) (fun _ => noRec_ok _)

theorem noRec_notOf (t : DF) : NoRec (notOf t) := by
  unfold notOf; split <;> first | exact noRec_ok _ | exact noRec_err (by simp) | exact noRec_mkOp _ _

theorem noRec_dedupe (l r : List DF) : NoRec (dedupe r l) := by
  induction l generalizing r with
  | nil => exact noRec_ok _
  | cons a l ih =>
    simp only [dedupe]
    exact NoRec.bind (noRec_notOf _) (fun _ => noRec_if (noRec_ok _) (noRec_if (ih _) (ih _)))

theorem noRec_mergeLandAux (t : DF) : NoRec (mergeLandAux t) := by
  induction t using DF.ind with
  | op o ns ih =>
    unfold mergeLandAux
    split
    · rename_i a b r h
      cases h
      refine NoRec.bind (ih a (by simp)) (fun _ => NoRec.bind (ih b (by simp)) (fun _ => NoRec.bind (noRec_dedupe _ _) (fun d => ?_)))
      split
      · exact noRec_ok _
      · exact NoRec.bind (noRec_sortByCode _) (fun _ => noRec_ok _)
    · exact noRec_err (by simp)
    · exact noRec_ok _
  | _ => simp [mergeLandAux, NoRec]

theorem noRec_rebuild (o : Op) (ns : List DF) : NoRec (rebuild o ns) := by
  cases ns with
  | nil => exact noRec_ok _
  | cons n ns =>
    simp only [rebuild]
    induction ns generalizing n with
    | nil => exact noRec_ok _
    | cons m ns ih => rw [List.foldlM_cons]; exact NoRec.bind (noRec_mkOp _ _) (fun _ => ih _)

theorem noRec_mergeLand (t : DF) : NoRec (mergeLand t) := by
  unfold mergeLand
  refine NoRec.bind (noRec_mergeLandAux _) (fun x => ?_)
  split
  · exact noRec_ok _
  · exact noRec_rebuild _ _

theorem noRec_mergeLorAux (t : DF) : NoRec (mergeLorAux t) := by
  induction t using DF.ind with
  | op o ns ih =>
    unfold mergeLorAux
    split
    · exact NoRec.bind (noRec_mergeLand _) (fun _ => noRec_ok _)
    · rename_i a b r h
      cases h
      refine NoRec.bind (ih a (by simp)) (fun _ => NoRec.bind (ih b (by simp)) (fun _ => NoRec.bind (noRec_dedupe _ _) (fun d => ?_)))
      split
      · exact noRec_ok _
      · exact NoRec.bind (noRec_sortByCode _) (fun _ => noRec_ok _)
    · exact noRec_err (by simp)
    · exact noRec_ok _
  | _ => simp [mergeLorAux, NoRec]

theorem noRec_mergeLandLor (t : DF) : NoRec (mergeLandLor t) := by
  unfold mergeLandLor
  refine NoRec.bind (noRec_mergeLorAux _) (fun x => ?_)
  split
  · exact noRec_ok _
  · exact noRec_rebuild _ _

theorem noRec_mergeConcatConst (ctx : OptCtx) (ns a b : List DF) : NoRec (ctx.mergeConcatConst a b ns) := by
  induction ns generalizing a b with
  | nil => exact noRec_ok _
  | cons n ns ih =>
    simp only [OptCtx.mergeConcatConst]
    exact noRec_if (NoRec.bind (noRec_evalConcat _ _) (fun _ => ih _ _)) (ih _ _)

theorem noRec_mergeConcatUndef (ctx : OptCtx) (ns a : List DF) (w : Int) : NoRec (ctx.mergeConcatUndef a w ns) := by
  induction ns generalizing a w with
  | nil => exact noRec_ok _
  | cons n ns ih =>
    unfold OptCtx.mergeConcatUndef
    split <;> exact ih _ _

theorem mergeConcatPsel_settles {ctx : OptCtx} (h : ctx.BoundsAcyclic) (ns a : List DF) (l : Option DF) :
    Settles (fun k => ctx.mergeConcatPsel k a l ns) := by
  induction ns generalizing a l with
  | nil => simp only [OptCtx.mergeConcatPsel]; exact Settles.ok _
  | cons n ns ih =>
    simp only [OptCtx.mergeConcatPsel]
    split
    · refine Settles.bind (Settles.nr (noRec_intAttr _)) (fun _ => Settles.bind (Settles.nr (noRec_intAttr _)) (fun _ =>
        Settles.ite ?_ (ih _ _)))
      exact Settles.bind (getWidth_settles h _) (fun _ => Settles.bind (Settles.nr (noRec_intAttr _)) (fun _ =>
        Settles.bind (Settles.nr (noRec_intAttr _)) (fun _ => ih _ _)))
    · exact ih _ _

theorem fillNone_settles {ctx : OptCtx} (h : ctx.BoundsAcyclic) (a b : DF) : Settles (fun k => ctx.fillNone k a b) := by
  unfold OptCtx.fillNone
  split
  · exact Settles.bind (getWidth_settles h _) (fun _ => Settles.ok _)
  · exact Settles.ok _

theorem mergeConcatBranch_settles {ctx : OptCtx} (h : ctx.BoundsAcyclic) (ns a : List DF) (l : Option DF) :
    Settles (fun k => ctx.mergeConcatBranch k a l ns) := by
  induction ns generalizing a l with
  | nil => simp only [OptCtx.mergeConcatBranch]; exact Settles.ok _
  | cons n ns ih =>
    unfold OptCtx.mergeConcatBranch
    split
    · refine Settles.ite ?_ (ih _ _)
      exact Settles.bind (fillNone_settles h _ _) (fun _ => Settles.bind (fillNone_settles h _ _) (fun _ =>
        Settles.bind (fillNone_settles h _ _) (fun _ => Settles.bind (fillNone_settles h _ _) (fun _ => ih _ _))))
    · exact ih _ _

theorem mergeConcat_settles {ctx : OptCtx} (h : ctx.BoundsAcyclic) (ns : List DF) : Settles (fun k => ctx.mergeConcat k ns) := by
  unfold OptCtx.mergeConcat
  refine Settles.bind (Settles.nr (noRec_mergeConcatConst _ _ _ _)) (fun _ => Settles.bind
    (Settles.nr (noRec_mergeConcatUndef _ _ _ _)) (fun _ => Settles.bind (mergeConcatPsel_settles h _ _ _) (fun c => ?_)))
  split
  · exact Settles.bind (mergeConcatBranch_settles h _ _ _) (fun _ => Settles.ok _)
  · exact Settles.ok _

theorem optHierList_settles_of {ctx : OptCtx} {ns : List DF} (h : ∀ n ∈ ns, Settles (fun k => ctx.optHier k n)) :
    Settles (fun k => ctx.optHierList k ns) := by
  induction ns with
  | nil => simp only [OptCtx.optHierList]; exact Settles.ok _
  | cons n ns ih =>
    simp only [OptCtx.optHierList]
    exact Settles.bind (h n (by simp)) (fun _ => Settles.bind (ih (fun m hm => h m (by simp [hm]))) (fun _ => Settles.ok _))

theorem optHierConcat_settles_of {ctx : OptCtx} {ns : List DF} (h : ∀ n ∈ ns, Settles (fun k => ctx.optHier k n)) :
    Settles (fun k => ctx.optHierConcat k ns) := by
  induction ns with
  | nil => simp only [OptCtx.optHierConcat]; exact Settles.ok _
  | cons n ns ih =>
    have ih' := ih (fun m hm => h m (by simp [hm]))
    unfold OptCtx.optHierConcat
    split
    · exact Settles.bind ih' (fun _ => Settles.ok _)
    · exact Settles.bind (h n (by simp)) (fun _ => Settles.bind ih' (fun _ => Settles.ok _))

theorem optHier_settles {ctx : OptCtx} (h : ctx.BoundsAcyclic) (t : DF) : Settles (fun k => ctx.optHier k t) := by
  induction t using DF.ind with
  | none | ev v w a b | undef w | hiz w | fltc s | strc s | delay n ih | intc s | term n =>
    simp only [OptCtx.optHier]; exact Settles.const (by simp)
  | branch c t f h1 h2 h3 =>
    simp only [OptCtx.optHier]
    refine Settles.bind h1 (fun _ => Settles.bind h2 (fun _ => Settles.bind h3 (fun _ => Settles.ite ?_
      (Settles.ite (Settles.ok _) (Settles.ok _)))))
    exact Settles.nr (NoRec.bind (noRec_isCondTrue _) (fun _ => noRec_ok _))
  | op o ns ih =>
    simp only [OptCtx.optHier]
    exact Settles.bind (optHierList_settles_of ih) (fun _ => Settles.bind (Settles.nr (noRec_mkOp _ _)) (fun _ =>
      Settles.bind (Settles.nr (noRec_replaceOperator _ _)) (fun _ => Settles.bind (Settles.nr (noRec_mergeIdenticalNodes _))
        (fun _ => Settles.bind (mergeStaticNodes_settles h _) (fun _ => Settles.nr (noRec_mergeLandLor _))))))
  | psel v m l h1 h2 h3 =>
    simp only [OptCtx.optHier]
    refine Settles.bind h2 (fun m' => Settles.bind h3 (fun l' => Settles.bind h1 (fun v' => Settles.ite ?_ (Settles.ok _))))
    split
    · exact takePart_settles h _ _ _
    · refine Settles.ite ?_ (Settles.ok _)
      exact Settles.bind (getWidth_settles h _) (fun _ => Settles.bind (Settles.nr (noRec_intAttr _)) (fun _ =>
        Settles.ite (Settles.ok _) (Settles.ok _)))
  | ptr v p h1 h2 =>
    simp only [OptCtx.optHier]
    refine Settles.bind h2 (fun p' => Settles.bind h1 (fun v' => ?_))
    split
    · exact Settles.ite (takePart_settles h _ _ _) (Settles.ok _)
    · exact Settles.ok _
  | concat ns ih =>
    simp only [OptCtx.optHier]
    exact Settles.bind (optHierConcat_settles_of ih) (fun _ => mergeConcat_settles h _)
  | sys s ns ih =>
    simp only [OptCtx.optHier]
    exact Settles.bind (optHierList_settles_of ih) (fun _ => Settles.ok _)

theorem optimize_settles {ctx : OptCtx} (h : ctx.BoundsAcyclic) (level : Nat) (t : DF) :
    Settles (fun k => ctx.optimize k level t) := by
  induction level generalizing t with
  | zero => simp only [OptCtx.optimize]; exact Settles.ok _
  | succ n ih =>
    simp only [OptCtx.optimize]
    exact Settles.bind (optConst_settles h _) (fun _ => Settles.bind (optHier_settles h _) (fun _ => ih _))

/-- **C51**: simplification terminates on every tree, at every level, unless the declared range of a parameter depends
on the parameter itself: from some recursion depth on the outcome is the same, a tree or an exception other than
"recursion too deep". -/
theorem C51_optimize_terminates (ctx : OptCtx) (h : ctx.BoundsAcyclic) (level : Nat) (t : DF) :
    ∃ r, r ≠ .error .recursion ∧ ∃ K, ∀ k ≥ K, ctx.optimize k level t = r := optimize_settles h level t

/-- **C51** for constant folding alone. -/
theorem C51_optimizeConstant_terminates (ctx : OptCtx) (h : ctx.BoundsAcyclic) (t : DF) :
    ∃ r, r ≠ .error .recursion ∧ ∃ K, ∀ k ≥ K, ctx.optConst k t = r := optConst_settles h t

/-- The condition of C51 cannot be dropped: folding a parameter declared with itself as upper bound
(`parameter [P:0] P = 3`) recurses without end, whatever the recursion depth. -/
theorem C51_self_bound_diverges (ctx : OptCtx) (n : ScopeChain) (tm : Term) (v : PyVal) (w : Option Int) (a b : Bool)
    (hc : ctx.consts.get? n = some (.ev v w a b)) (ht : ctx.terms.get? n = some tm) (hm : tm.msb = .term n)
    (hl : tm.lsb ≠ .none) (k : Nat) : ctx.optConst k (.term n) = .error .recursion := by
  induction k with
  | zero => rfl
  | succ k ih =>
    simp only [OptCtx.optConst, hc, Dict.get, ht, ok_bind, hm, ih]
    simp [hl, Bind.bind, Except.bind]

/-! ### witnesses -/

def c51P : ScopeChain := [⟨['m'], .module, none⟩, ⟨['P'], .signal, none⟩]
def c51Q : ScopeChain := [⟨['m'], .module, none⟩, ⟨['Q'], .signal, none⟩]

/-- `parameter Q = 7; parameter [Q:0] P = 3;`. -/
def c51ctx : OptCtx :=
  ⟨[(c51P, ⟨c51P, [.parameter], .term c51Q, .intc ['0'], none⟩), (c51Q, ⟨c51Q, [.parameter], .none, .none, none⟩)],
    [(c51P, .evi 3 (some 32)), (c51Q, .evi 7 (some 32))], 32, fun _ => none⟩

/-- Non-vacuity of C51: a range that depends on another parameter is acyclic, and `P + 1` folds. -/
example : c51ctx.BoundsAcyclic ∧ c51ctx.optimize 10 1 (.op .plus [.term c51P, .intc ['1']]) = .ok (.evi 4 (some 32)) := by
  refine ⟨⟨fun n => if n = c51P then 1 else 0, ?_⟩, by decide +kernel⟩
  intro n c tm hc ht m hm
  by_cases h1 : n = c51P
  · subst h1
    have : tm = ⟨c51P, [.parameter], .term c51Q, .intc ['0'], none⟩ := by
      have : c51ctx.terms.get? c51P = some ⟨c51P, [.parameter], .term c51Q, .intc ['0'], none⟩ := rfl
      rw [this] at ht; exact (Option.some.inj ht).symm
    subst this
    simp [DF.terms] at hm
    subst hm
    decide
  · by_cases h2 : n = c51Q
    · subst h2
      have : tm = ⟨c51Q, [.parameter], .none, .none, none⟩ := by
        have : c51ctx.terms.get? c51Q = some ⟨c51Q, [.parameter], .none, .none, none⟩ := rfl
        rw [this] at ht; exact (Option.some.inj ht).symm
      subst this
      simp [DF.terms] at hm
    · exfalso
      have := Dict.mem_of_get? ht
      simp only [c51ctx, List.mem_cons, Prod.mk.injEq, List.not_mem_nil, or_false] at this
      rcases this with h | h
      · exact h1 h.1
      · exact h2 h.1

/-- Non-vacuity of the divergence: `parameter [P:0] P = 3`. -/
example : (⟨[(c51P, ⟨c51P, [.parameter], .term c51P, .intc ['0'], none⟩)], [(c51P, .evi 3 (some 32))], 32, fun _ => none⟩ :
    OptCtx).optConst 100 (.term c51P) = .error .recursion :=
  C51_self_bound_diverges _ _ _ _ _ _ _ rfl rfl rfl (by simp) _

end Pyv
