import Verif.Ident
import Verif.Util
import Mathlib.Data.List.Forall2
import Mathlib.Tactic.Conv
/-
  C43 (identifier replacement), C62 (equality of syntax trees).
-/
namespace Pyv

theorem replaceIdsL_eq (ids : Dict Str Str) (es : List Ex) : Ex.replaceIdsL ids es = es.map (Ex.replaceIds ids) := by
  induction es with
  | nil => rfl
  | cons e es ih => rw [Ex.replaceIdsL, ih, List.map_cons]

theorem idNamesL_eq (es : List Ex) : Ex.idNamesL es = es.flatMap Ex.idNames := by
  induction es with
  | nil => rfl
  | cons e es ih => rw [Ex.idNamesL, ih, List.flatMap_cons]

theorem sreplaceIdsL_eq (ids : Dict Str Str) (es : List Stmt) : Stmt.replaceIdsL ids es = es.map (Stmt.replaceIds ids) := by
  induction es with
  | nil => rfl
  | cons e es ih => rw [Stmt.replaceIdsL, ih, List.map_cons]

theorem sidNamesL_eq (es : List Stmt) : Stmt.idNamesL es = es.flatMap Stmt.idNames := by
  induction es with
  | nil => rfl
  | cons e es ih => rw [Stmt.idNamesL, ih, List.flatMap_cons]

/-- The new name of `n`. -/
def newName (ids : Dict Str Str) (n : Str) : Str := match ids.get? n with | some m => m | none => n

theorem renameStr_eq (ids : Dict Str Str) (n : Str) : renameStr ids n = newName ids n := by
  unfold renameStr newName; cases ids.get? n <;> rfl

/-- **C43** The identifiers of the result are the renamed identifiers of the input, in the same order (expressions). -/
theorem C43_identifiers (ids : Dict Str Str) (e : Ex) : (e.replaceIds ids).idNames = e.idNames.map (newName ids) := by
  have hL : ∀ es : List Ex, (∀ e ∈ es, (e.replaceIds ids).idNames = e.idNames.map (newName ids)) →
      (es.map (Ex.replaceIds ids)).flatMap Ex.idNames = (es.flatMap Ex.idNames).map (newName ids) := by
    intro es h
    induction es with
    | nil => rfl
    | cons e es ih => simp [h e (by simp), ih (fun e he => h e (by simp [he]))]
  induction e using Ex.ind <;> intros <;>
    simp only [Ex.replaceIds, Ex.idNames, List.map_nil, List.map_append, replaceIdsL_eq, idNamesL_eq, List.map_cons, *]
  · rename_i sc n
    unfold newName
    cases h : ids.get? n <;> simp [Ex.idNames]
  · rename_i h; rw [hL _ h]
  · rename_i h; rw [hL _ h, renameStr_eq]
  · rename_i h; rw [hL _ h]

/-- **C43** The same for statements. -/
theorem C43_statement_identifiers (ids : Dict Str Str) (s : Stmt) :
    (s.replaceIds ids).idNames = s.idNames.map (newName ids) := by
  have hL : ∀ es : List Stmt, (∀ e ∈ es, (e.replaceIds ids).idNames = e.idNames.map (newName ids)) →
      (es.map (Stmt.replaceIds ids)).flatMap Stmt.idNames = (es.flatMap Stmt.idNames).map (newName ids) := by
    intro es h
    induction es with
    | nil => rfl
    | cons e es ih => simp [h e (by simp), ih (fun e he => h e (by simp [he]))]
  have hE : ∀ es : List Ex, Ex.idNamesL (Ex.replaceIdsL ids es) = (Ex.idNamesL es).map (newName ids) := by
    intro es
    induction es with
    | nil => rfl
    | cons e es ih => simp [Ex.replaceIdsL, Ex.idNamesL, C43_identifiers, ih]
  have hC : ∀ (cs : List (Option (List Ex))) (ss : List Stmt), (∀ e ∈ ss, (e.replaceIds ids).idNames = e.idNames.map (newName ids)) →
      Stmt.idNamesC (cs.map (fun o => o.map (Ex.replaceIdsL ids))) (ss.map (Stmt.replaceIds ids)) =
        (Stmt.idNamesC cs ss).map (newName ids) := by
    intro cs
    induction cs with
    | nil => intro ss _; cases ss <;> simp [Stmt.idNamesC]
    | cons c cs ih =>
      intro ss h
      cases ss with
      | nil => simp [Stmt.idNamesC]
      | cons s ss =>
        simp only [List.map_cons, Stmt.idNamesC, List.map_append, h s (by simp), ih ss (fun e he => h e (by simp [he]))]
        congr 2
        cases c with
        | none => rfl
        | some es => exact hE es
  induction s using Stmt.ind <;> intros <;>
    simp only [Stmt.replaceIds, Stmt.idNames, List.map_nil, List.map_append, sreplaceIdsL_eq, sidNamesL_eq, C43_identifiers, *]
  · rename_i h; rw [hC _ _ h]
  · rename_i h; rw [hL _ h]

mutual
/-- The shape of an expression: everything but the names of its identifiers. -/
def Ex.shape : Ex → Ex
  | .ident sc _ => .ident sc []
  | .intc s => .intc s
  | .fltc s => .fltc s
  | .strc s => .strc s
  | .uplus e => .uplus e.shape
  | .un o e => .un o e.shape
  | .bin o a b => .bin o a.shape b.shape
  | .cond c t f => .cond c.shape t.shape f.shape
  | .psel v m l => .psel v.shape m.shape l.shape
  | .ptr v p => .ptr v.shape p.shape
  | .concat es => .concat (Ex.shapeL es)
  | .rep t v => .rep t.shape v.shape
  | .call _ es => .call [] (Ex.shapeL es)
  | .sys f es => .sys f (Ex.shapeL es)
/-- The shapes of a list of expressions. -/
def Ex.shapeL : List Ex → List Ex
  | [] => []
  | e :: es => e.shape :: Ex.shapeL es
end

mutual
/-- No hierarchical name in the expression is to be renamed. -/
def Ex.HierKept (ids : Dict Str Str) : Ex → Prop
  | .ident sc n => sc = [] ∨ ids.get? n = none
  | .intc _ | .fltc _ | .strc _ => True
  | .uplus e | .un _ e => e.HierKept ids
  | .bin _ a b | .rep a b | .ptr a b => a.HierKept ids ∧ b.HierKept ids
  | .cond a b c | .psel a b c => a.HierKept ids ∧ b.HierKept ids ∧ c.HierKept ids
  | .concat es | .call _ es | .sys _ es => Ex.HierKeptL ids es
/-- The same for a list. -/
def Ex.HierKeptL (ids : Dict Str Str) : List Ex → Prop
  | [] => True
  | e :: es => e.HierKept ids ∧ Ex.HierKeptL ids es
end

theorem hierKeptL_iff (ids : Dict Str Str) (es : List Ex) : Ex.HierKeptL ids es ↔ ∀ e ∈ es, e.HierKept ids := by
  induction es with
  | nil => simp [Ex.HierKeptL]
  | cons e es ih => simp [Ex.HierKeptL, ih]

theorem shapeL_eq (es : List Ex) : Ex.shapeL es = es.map Ex.shape := by
  induction es with
  | nil => rfl
  | cons e es ih => rw [Ex.shapeL, ih, List.map_cons]

/-- **C43** (partial: no hierarchical name is renamed) Nothing but the names changes: the shape of the expression is kept.
Missing: `C43_hierarchical_false`. -/
theorem C43_shape_partial (ids : Dict Str Str) (e : Ex) (h : e.HierKept ids) : (e.replaceIds ids).shape = e.shape := by
  have hL : ∀ es : List Ex, (∀ e ∈ es, e.HierKept ids → (e.replaceIds ids).shape = e.shape) → Ex.HierKeptL ids es →
      (es.map (Ex.replaceIds ids)).map Ex.shape = es.map Ex.shape := by
    intro es h1 h2
    rw [List.map_map]
    apply List.map_congr_left
    intro e he
    exact h1 e he ((hierKeptL_iff ids es).mp h2 e he)
  revert h
  induction e using Ex.ind <;> intros <;>
    simp only [Ex.replaceIds, Ex.shape, replaceIdsL_eq, shapeL_eq]
  · rename_i sc n h
    rcases h with rfl | h
    · cases ids.get? n <;> rfl
    · rw [h]; rfl
  · rename_i ih h; rw [ih h]
  · rename_i ih h; rw [ih h]
  · rename_i i1 i2 h; rw [i1 h.1, i2 h.2]
  · rename_i i1 i2 i3 h; rw [i1 h.1, i2 h.2.1, i3 h.2.2]
  · rename_i i1 i2 i3 h; rw [i1 h.1, i2 h.2.1, i3 h.2.2]
  · rename_i i1 i2 h; rw [i1 h.1, i2 h.2]
  · rename_i ih h; rw [hL _ ih h]
  · rename_i i1 i2 h; rw [i1 h.1, i2 h.2]
  · rename_i ih h; rw [hL _ ih h]
  · rename_i ih h; rw [hL _ ih h]

/-- **C43** An expression none of whose identifiers is to be renamed is returned unchanged. -/
theorem C43_unaffected (ids : Dict Str Str) (e : Ex) (h : ∀ n ∈ e.idNames, ids.get? n = none) : e.replaceIds ids = e := by
  have hL : ∀ es : List Ex, (∀ e ∈ es, (∀ n ∈ e.idNames, ids.get? n = none) → e.replaceIds ids = e) →
      (∀ n ∈ es.flatMap Ex.idNames, ids.get? n = none) → es.map (Ex.replaceIds ids) = es := by
    intro es h1 h2
    conv_rhs => rw [← List.map_id es]
    apply List.map_congr_left
    intro e he
    exact h1 e he (fun n hn => h2 n (List.mem_flatMap.mpr ⟨e, he, hn⟩))
  revert h
  induction e using Ex.ind <;> intros <;>
    simp only [Ex.replaceIds, replaceIdsL_eq] <;> rename_i h <;>
    simp only [Ex.idNames, idNamesL_eq, List.mem_append, List.mem_cons, List.not_mem_nil, or_false, forall_eq, or_imp, forall_and] at h
  · rw [h]
  · rename_i ih; rw [ih h]
  · rename_i ih; rw [ih h]
  · rename_i i1 i2; rw [i1 h.1, i2 h.2]
  · rename_i i1 i2 i3; rw [i1 h.1.1, i2 h.1.2, i3 h.2]
  · rename_i i1 i2 i3; rw [i1 h.1.1, i2 h.1.2, i3 h.2]
  · rename_i i1 i2; rw [i1 h.1, i2 h.2]
  · rename_i ih; rw [hL _ ih h]
  · rename_i i1 i2; rw [i1 h.2, i2 h.1]
  · rename_i ih; rw [hL _ ih h.2, renameStr_eq, newName, h.1]
  · rename_i ih; rw [hL _ ih h]

/-- **C43** in full is false: a hierarchical name `u.x` becomes `y` under the renaming of `x` to `y`: for every
renaming and every hierarchical name whose last component is renamed, the scope is lost. -/
theorem C43_hierarchical_false (ids : Dict Str Str) (sc : List Str) (n m : Str) (hsc : sc ≠ []) (h : ids.get? n = some m) :
    (Ex.ident sc n).replaceIds ids = .ident [] m ∧ ((Ex.ident sc n).replaceIds ids).shape ≠ (Ex.ident sc n).shape := by
  have e : (Ex.ident sc n).replaceIds ids = .ident [] m := by rw [Ex.replaceIds, h]
  refine ⟨e, ?_⟩
  rw [e]
  simp only [Ex.shape, ne_eq, Ex.ident.injEq, not_and]
  intro h; exact absurd h.symm hsc

/-- Non-vacuity: `f(a, u.b) + a[c]` with `a` renamed to `c` and `f` to `g`. -/
example :
    let e : Ex := .bin .plus (.call ['f'] [.ident [] ['a'], .ident [['u']] ['b']]) (.ptr (.ident [] ['a']) (.ident [] ['c']))
    let ids : Dict Str Str := [(['a'], ['c']), (['f'], ['g'])]
    e.replaceIds ids = .bin .plus (.call ['g'] [.ident [] ['c'], .ident [['u']] ['b']]) (.ptr (.ident [] ['c']) (.ident [] ['c'])) ∧
    e.HierKept ids ∧ e.idNames = [['f'], ['a'], ['b'], ['a'], ['c']] := by
  refine ⟨rfl, ?_, rfl⟩
  simp [Ex.HierKept, Ex.HierKeptL, Dict.get?]

/-! ### C62 -/

/-- Structural induction over nodes. -/
theorem ANode.ind {P : ANode → Prop} (nd : ∀ c a ks, (∀ k ∈ ks, P k) → P (.nd c a ks)) (n : ANode) : P n :=
  ANode.rec (motive_1 := P) (motive_2 := fun ks => ∀ k ∈ ks, P k) (fun c a ks h => nd c a ks h) (by simp)
    (fun h t hh ht => by intro n hn; rcases List.mem_cons.mp hn with rfl | h'; exact hh; exact ht n h') n

/-- **C62** Equality of syntax trees is reflexive. -/
theorem C62_refl (n : ANode) : n.pyEq n = .ok true := by
  induction n using ANode.ind with | nd c a ks h => ?_
  rw [ANode.pyEq]
  simp only [ne_eq, not_true_eq_false, if_false]
  induction ks with
  | nil => rfl
  | cons k ks ih => rw [ANode.pyEqL, h k (by simp)]; exact ih (fun x hx => h x (by simp [hx]))

/-- The same number of children everywhere. -/
inductive SameArity : ANode → ANode → Prop
  | nd {c a c' a' ks ks'} : List.Forall₂ SameArity ks ks' → SameArity (.nd c a ks) (.nd c' a' ks')

/-- **C62** (partial) Between trees with the same numbers of children, `==` never raises and is true exactly of identical
trees (hence symmetric, transitive and consistent with the hash). Missing: `C62_prefix_equal`. -/
theorem C62_same_arity_partial (m n : ANode) (h : SameArity m n) : ∃ b, m.pyEq n = .ok b ∧ (b = true ↔ m = n) := by
  revert n
  induction m using ANode.ind with | nd c a ks ih => ?_
  intro n h
  cases h with
  | @nd c a c' a' ks ks' hk =>
    rw [ANode.pyEq]
    by_cases hc : c = c'
    · by_cases ha : a = a'
      · subst hc; subst ha
        simp only [ne_eq, not_true_eq_false, if_false]
        have : ∃ b, ANode.pyEqL ks ks' = .ok b ∧ (b = true ↔ ks = ks') := by
          induction hk with
          | nil => exact ⟨true, rfl, by simp⟩
          | @cons k k' ks ks' h1 _ ih2 =>
            obtain ⟨b, hb, hbe⟩ := ih k (by simp) k' h1
            obtain ⟨b2, hb2, hbe2⟩ := ih2 (fun x hx => ih x (by simp [hx]))
            cases b with
            | false =>
              refine ⟨false, by rw [ANode.pyEqL, hb]; rfl, ?_⟩
              have hne : k ≠ k' := fun e => by simpa using hbe.mpr e
              simp [hne]
            | true =>
              refine ⟨b2, by rw [ANode.pyEqL, hb]; exact hb2, ?_⟩
              rw [hbe2, hbe.mp rfl]; simp
        obtain ⟨b, hb, he⟩ := this
        exact ⟨b, hb, by rw [he]; simp⟩
      · refine ⟨false, by simp [hc, ha], by simp [ha]⟩
    · refine ⟨false, by simp [hc], by simp [hc]⟩

/-- **C62** in full is false: a node equals every node with the same class and attributes and additional children at
the end, and the comparison the other way round raises IndexError; their hashes differ.  So `==` is not symmetric, and
equal nodes have different hashes. -/
theorem C62_prefix_equal (c : Str) (a : List Str) (ks more : List ANode) (h : more ≠ []) :
    (ANode.nd c a ks).pyEq (.nd c a (ks ++ more)) = .ok true ∧ (ANode.nd c a (ks ++ more)).pyEq (.nd c a ks) = .error .index ∧
    (ANode.nd c a ks).hashKey ≠ (ANode.nd c a (ks ++ more)).hashKey := by
  refine ⟨?_, ?_, ?_⟩
  · rw [ANode.pyEq]
    simp only [ne_eq, not_true_eq_false, if_false]
    induction ks with
    | nil => rfl
    | cons k ks ih => rw [List.cons_append, ANode.pyEqL, C62_refl]; exact ih
  · rw [ANode.pyEq]
    simp only [ne_eq, not_true_eq_false, if_false]
    induction ks with
    | nil =>
      obtain ⟨x, xs, rfl⟩ := List.exists_cons_of_ne_nil h
      rfl
    | cons k ks ih => rw [List.cons_append, ANode.pyEqL, C62_refl]; exact ih
  · intro e
    simp only [ANode.hashKey, HashKey.key.injEq, true_and] at e
    have hlen : ∀ l, (ANode.hashKeyL l).length = l.length := by
      intro l
      induction l with
      | nil => rfl
      | cons k l ih => simp [ANode.hashKeyL, ih]
    have := congrArg List.length e
    rw [hlen, hlen, List.length_append] at this
    have h2 : more.length = 0 := by omega
    exact h (List.length_eq_zero_iff.mp h2)

/-- **C62** ast.py:810-827: `children()` of an if statement leaves out a missing branch, so an if statement with only a then
branch and one with only an else branch are the same node to `==` and to the hash.  `none` is None. -/
def ifNode (c : ANode) (t f : Option ANode) : ANode := .nd "IfStatement".toList [] (c :: (t.toList ++ f.toList))

theorem C62_then_equals_else (c s : ANode) : (ifNode c (some s) none).pyEq (ifNode c none (some s)) = .ok true :=
  C62_refl _

/-- Non-vacuity of C62_same_arity_partial: `a + b` and `a + c`. -/
example : SameArity (.nd "Plus".toList [] [.nd "Identifier".toList [['a']] [], .nd "Identifier".toList [['b']] []])
    (.nd "Plus".toList [] [.nd "Identifier".toList [['a']] [], .nd "Identifier".toList [['c']] []]) :=
  .nd (.cons (.nd .nil) (.cons (.nd .nil) .nil))

end Pyv
