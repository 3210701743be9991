import Verif.Subset
import Verif.Props.MergeSources
import Verif.Props.MergeTotal
import Mathlib.Logic.Relation
/-
  C44 (dictionary merge), C35 (subset extraction), C61 (classification of the assignments).
-/
namespace Pyv

/-! ### C44 -/

section
variable {κ α : Type} [DecidableEq κ] [DecidableEq α]

theorem mem_appendMissing (l bs : List α) (x : α) : x ∈ appendMissing l bs ↔ x ∈ l ∨ x ∈ bs := by
  induction bs generalizing l with
  | nil => simp [appendMissing]
  | cons b bs ih =>
    rw [appendMissing, ih]
    by_cases h : b ∈ l
    · simp only [h, if_true, List.mem_cons]
      constructor
      · rintro (h | h) <;> simp [h]
      · rintro (h1 | rfl | h1)
        · exact .inl h1
        · exact .inl h
        · exact .inr h1
    · simp only [h, if_false, List.mem_append, List.mem_cons, List.not_mem_nil, or_false, or_assoc]

theorem appendMissing_prefix (l bs : List α) : l <+: appendMissing l bs := by
  induction bs generalizing l with
  | nil => exact List.prefix_refl l
  | cons b bs ih =>
    rw [appendMissing]
    refine List.IsPrefix.trans ?_ (ih _)
    split
    · exact List.prefix_refl _
    · exact List.prefix_append _ _

theorem appendMissing_nodup (l bs : List α) (h : l.Nodup) : (appendMissing l bs).Nodup := by
  induction bs generalizing l with
  | nil => exact h
  | cons b bs ih =>
    rw [appendMissing]
    apply ih
    split
    · exact h
    · rename_i hb
      rw [List.nodup_append]
      exact ⟨h, by simp, by intro a ha c hc; simp at hc; subst hc; rintro rfl; exact hb ha⟩

/-- The list under a key after the merge. -/
theorem dictlistmergeLoop_get (a b : Dict κ (List α)) (hb : b.Nodup) (k : κ) :
    (dictlistmergeLoop a b).get? k =
      match a.get? k, b.get? k with
      | some l, some m => some (appendMissing l m)
      | some l, none => some l
      | none, m => m := by
  induction b generalizing a with
  | nil => rw [dictlistmergeLoop, Dict.get?_nil]; cases a.get? k <;> rfl
  | cons p b ih =>
    obtain ⟨k', v⟩ := p
    have hn : Dict.Nodup (b : Dict κ (List α)) := by unfold Dict.Nodup at hb ⊢; simp at hb; exact hb.2
    have hk' : Dict.get? (b : Dict κ (List α)) k' = none := by
      cases hg : Dict.get? (b : Dict κ (List α)) k' with
      | none => rfl
      | some w =>
        exfalso
        unfold Dict.Nodup at hb
        simp at hb
        exact hb.1 _ (Dict.mem_of_get? hg)
    rw [dictlistmergeLoop, Dict.get?_cons]
    cases ha : a.get? k' with
    | some l =>
      simp only [ih _ hn, Dict.get?_set]
      by_cases hk : k' = k
      · subst hk; simp [ha, hk']
      · have hk2 : ¬ k = k' := fun e => hk e.symm
        simp [hk, hk2]
    | none =>
      simp only [ih _ hn, Dict.get?_set]
      by_cases hk : k' = k
      · subst hk; simp [ha, hk']
      · have hk2 : ¬ k = k' := fun e => hk e.symm
        simp [hk, hk2]

theorem dictlistmergeLoop_keys (a b : Dict κ (List α)) (hb : b.Nodup) :
    (dictlistmergeLoop a b).map (·.1) = a.map (·.1) ++ (b.map (·.1)).filter (fun k => decide (k ∉ a.map (·.1))) := by
  induction b generalizing a with
  | nil => simp [dictlistmergeLoop]
  | cons p b ih =>
    obtain ⟨k', v⟩ := p
    have hn : Dict.Nodup (b : Dict κ (List α)) := by unfold Dict.Nodup at hb ⊢; simp at hb; exact hb.2
    have hk' : k' ∉ b.map (·.1) := by unfold Dict.Nodup at hb; exact (List.nodup_cons.mp hb).1
    have hmem : a.has k' = true ↔ k' ∈ a.map (·.1) := by simp [Dict.has]
    rw [dictlistmergeLoop]
    cases ha : a.get? k' with
    | some l =>
      have h1 : k' ∈ a.map (·.1) := by rw [← hmem, Dict.has_eq, ha]; rfl
      simp only [ih _ hn, Dict.keys_set, hmem.mpr h1, if_true, List.map_cons]
      rw [List.filter_cons_of_neg (by simpa using h1)]
    | none =>
      have h1 : k' ∉ a.map (·.1) := by rw [← hmem, Dict.has_eq, ha]; simp
      have h2 : a.has k' = false := by cases h : a.has k' with | false => rfl | true => exact absurd (hmem.mp h) h1
      simp only [ih _ hn, Dict.keys_set, h2, List.map_cons, Bool.false_eq_true, if_false]
      rw [List.filter_cons_of_pos (by simpa using h1), List.append_assoc, List.singleton_append]
      congr 2
      apply List.filter_congr
      intro x hx
      have : x ≠ k' := fun e => hk' (e ▸ hx)
      simp [this]

/-- **C44** Merging two dictionaries of lists (of pairwise different keys, as Python dictionaries are): the keys are those
of `a` followed by the new ones of `b`; under each key are exactly the elements of the two lists, those of `a` first and
in their order, and nothing twice unless `a` or `b` alone had it twice; the result is again a dictionary. -/
theorem C44_dictlistmerge (a b : Dict κ (List α)) (ha : a.Nodup) (hb : b.Nodup) :
    ((dictlistmerge a b).map (·.1) = a.map (·.1) ++ (b.map (·.1)).filter (fun k => decide (k ∉ a.map (·.1)))) ∧
    (dictlistmerge a b).Nodup ∧
    (∀ k, (∃ l, (dictlistmerge a b).get? k = some l) ↔ (∃ l, a.get? k = some l) ∨ ∃ m, b.get? k = some m) ∧
    (∀ k r, (dictlistmerge a b).get? k = some r →
      (∀ x, x ∈ r ↔ (∃ l, a.get? k = some l ∧ x ∈ l) ∨ ∃ m, b.get? k = some m ∧ x ∈ m) ∧
      (∀ l, a.get? k = some l → l <+: r ∧ (l.Nodup → r.Nodup)) ∧
      (a.get? k = none → b.get? k = some r)) := by
  have hg := dictlistmergeLoop_get a b hb
  refine ⟨dictlistmergeLoop_keys a b hb, ?_, ?_, ?_⟩
  · unfold Dict.Nodup dictlistmerge
    rw [dictlistmergeLoop_keys a b hb, List.nodup_append]
    refine ⟨ha, List.Nodup.filter _ hb, ?_⟩
    intro x hx y hy e
    subst e
    simp only [List.mem_filter, decide_eq_true_eq] at hy
    exact hy.2 hx
  · intro k
    rw [dictlistmerge, hg]
    cases a.get? k <;> cases b.get? k <;> simp
  · intro k r hr
    rw [dictlistmerge, hg] at hr
    cases h1 : a.get? k with
    | none =>
      rw [h1] at hr
      simp only at hr
      refine ⟨fun x => by simp [hr], by simp, fun _ => hr⟩
    | some l =>
      rw [h1] at hr
      cases h2 : b.get? k with
      | none =>
        rw [h2] at hr
        simp only [Option.some.injEq] at hr
        subst hr
        refine ⟨fun x => by simp, ?_, by simp⟩
        intro l' e; simp at e; subst e; exact ⟨List.prefix_refl _, id⟩
      | some m =>
        rw [h2] at hr
        simp only [Option.some.injEq] at hr
        subst hr
        refine ⟨fun x => by simp [mem_appendMissing], ?_, by simp⟩
        intro l' e; simp at e; subst e; exact ⟨appendMissing_prefix _ _, appendMissing_nodup _ _⟩

/-- **C44** The first argument is changed by the call: it keeps its keys, but each of its lists gains the elements which
`b` has under the same key. -/
theorem C44_first_argument_changed (a b : Dict κ (List α)) (hb : b.Nodup) :
    (dictlistmergeLeft a b).map (·.1) = a.map (·.1) ∧
    ∀ k l, a.get? k = some l → ∃ r, (dictlistmergeLeft a b).get? k = some r ∧
      ∀ x, x ∈ r ↔ x ∈ l ∨ ∃ m, b.get? k = some m ∧ x ∈ m := by
  refine ⟨by simp [dictlistmergeLeft, List.map_map, Function.comp_def], ?_⟩
  intro k l hl
  have key : ∀ (d : Dict κ (List α)) (f : κ → List α → List α), Dict.get? (d.map (fun p => (p.1, f p.1 p.2))) k = (d.get? k).map (f k) := by
    intro d f
    induction d with
    | nil => rfl
    | cons p d ih =>
      rw [List.map_cons, Dict.get?_cons, Dict.get?_cons, ih]
      by_cases h : p.1 = k
      · simp [h]
      · simp [h]
  rw [dictlistmergeLeft, key a (fun k l => ((dictlistmerge a b).get? k).getD l), hl]
  refine ⟨_, rfl, ?_⟩
  intro x
  simp only [dictlistmerge, dictlistmergeLoop_get a b hb, hl]
  cases h2 : b.get? k with
  | none => simp
  | some m => simp [mem_appendMissing]

end

/-- Non-vacuity: two dictionaries sharing a key, with a repeated element. -/
example : dictlistmerge [(1, [10, 11]), (2, [20])] [(3, [30]), (1, [11, 12, 12])] = [(1, [10, 11, 12]), (2, [20]), (3, [30])] ∧
    dictlistmergeLeft [(1, [10, 11]), (2, [20])] [(3, [30]), (1, [11, 12, 12])] = [(1, [10, 11, 12]), (2, [20])] ∧
    Dict.Nodup [(1, [10, 11]), (2, [20])] ∧ Dict.Nodup [(3, [30]), (1, [11, 12, 12])] := by
  unfold Dict.Nodup
  decide


/-! ### C35 -/

/-- `x` reads `y`: `y` occurs in the declared range or dimensions of `x`, or in the target range, index or source of an
assignment to `x`. -/
def SubsetEnv.Reads (S : SubsetEnv) (x y : ScopeChain) : Prop :=
  (∃ t, S.merge.terms.get? x = some t ∧ (y ∈ t.msb.terms ∨ y ∈ t.lsb.terms ∨
      ∃ ds, t.dims = some ds ∧ ∃ d ∈ ds, y ∈ d.1.terms ∨ y ∈ d.2.terms)) ∨
    ∃ bs, S.merge.binds.get? x = some bs ∧ ∃ b ∈ bs, y ∈ b.msb.terms ∨ y ∈ b.lsb.terms ∨ y ∈ b.ptr.terms ∨ y ∈ b.tree.terms

/-- `x` is clocked by `c`, which is not the clock of the top module: an assignment to `x` is made in an always block at
the positive or negative edge of `c`. -/
def SubsetEnv.ClockedBy (S : SubsetEnv) (x c : ScopeChain) : Prop :=
  ∃ bs, S.merge.binds.get? x = some bs ∧ ∃ b ∈ bs, ∃ a, b.always = some a ∧ a.clockName = some c ∧
    (a.clockEdge = some "posedge".toList ∨ a.clockEdge = some "negedge".toList) ∧
    ScopeChain.pyEq c (toTermnameList [S.top, S.clock]) = false

/-- The dependencies followed. -/
def SubsetEnv.Dep (S : SubsetEnv) (x y : ScopeChain) : Prop := S.Reads x y ∨ S.ClockedBy x y

/-- Transitive dependency. -/
def SubsetEnv.Reach (S : SubsetEnv) : ScopeChain → ScopeChain → Prop := Relation.ReflTransGen S.Dep

/-- The assignment `b` is recorded under the name `y`. -/
def Rec (B : Dict ScopeChain (List Bind)) (y : ScopeChain) (b : Bind) : Prop := ∃ l, B.get? y = some l ∧ b ∈ l

theorem rec_merge {A B : Dict ScopeChain (List Bind)} (hB : B.Nodup) (y : ScopeChain) (b : Bind) :
    Rec (dictlistmerge A B) y b ↔ Rec A y b ∨ Rec B y b := by
  unfold Rec dictlistmerge
  rw [dictlistmergeLoop_get A B hB]
  cases A.get? y <;> cases B.get? y <;> simp [mem_appendMissing]

theorem rec_add {A : Dict ScopeChain (List Bind)} (n y : ScopeChain) (c b : Bind) :
    Rec (A.set n ((A.get? n).getD [] ++ [c])) y b ↔ Rec A y b ∨ (y = n ∧ b = c) := by
  unfold Rec
  rw [Dict.get?_set]
  by_cases h : n = y
  · subst h
    cases A.get? n <;> simp
  · have h2 : ¬ y = n := fun e => h e.symm
    simp [h, h2]

theorem nodup_merge {A B : Dict ScopeChain (List Bind)} (hA : A.Nodup) (hB : B.Nodup) : (dictlistmerge A B).Nodup :=
  (C44_dictlistmerge A B hA hB).2.1

theorem mem_bindlist (S : MergeEnv) (x : ScopeChain) (b : Bind) :
    b ∈ S.bindlist x ↔ ∃ bs, S.binds.get? x = some bs ∧ b ∈ bs := by
  unfold MergeEnv.bindlist
  cases S.binds.get? x <;> simp

theorem foreign_clocked (S : SubsetEnv) {x c : ScopeChain} :
    S.ClockedBy x c ↔ ∃ b ∈ S.merge.bindlist x, S.foreignClock b = true ∧ b.clockName = some c := by
  unfold SubsetEnv.ClockedBy SubsetEnv.foreignClock Bind.isClockEdge Bind.clockName AlwaysInfo.isClockEdge
  constructor
  · rintro ⟨bs, h, b, hb, a, ha, hc, he, hp⟩
    refine ⟨b, (mem_bindlist _ _ _).mpr ⟨bs, h, hb⟩, ?_, ?_⟩
    · simp only [ha, hc, Option.bind_some, hp]
      rcases he with he | he <;> simp [he]
    · simp [ha, hc]
  · rintro ⟨b, hb, hf, hc⟩
    obtain ⟨bs, h, hb⟩ := (mem_bindlist _ _ _).mp hb
    cases ha : b.always with
    | none => simp [ha] at hc
    | some a =>
      simp only [ha, Option.bind_some] at hf hc
      simp only [hc, Bool.and_eq_true, Bool.or_eq_true, decide_eq_true_eq, Bool.not_eq_true'] at hf
      exact ⟨bs, h, b, hb, a, ha, hc, hf.1, hf.2⟩

/-- What the result must contain for the name `y`, given the set `K` of names dealt with. -/
def SubsetEnv.Done (S : SubsetEnv) (B : Dict ScopeChain (List Bind)) (N : List ScopeChain) (K : ScopeChain → Prop)
    (y : ScopeChain) : Prop :=
  (∀ b ∈ S.merge.bindlist y, Rec B y b) ∧ (∀ x, S.Reads y x → x ∈ N) ∧ (∀ c, S.ClockedBy y c → K c)

theorem SubsetEnv.Done.mono {S : SubsetEnv} {B B' : Dict ScopeChain (List Bind)} {N N' : List ScopeChain}
    {K K' : ScopeChain → Prop} {y : ScopeChain} (h : S.Done B N K y) (hB : ∀ y b, Rec B y b → Rec B' y b)
    (hN : ∀ x ∈ N, x ∈ N') (hK : ∀ c, K c → K' c) : S.Done B' N' K' y :=
  ⟨fun b hb => hB _ _ (h.1 b hb), fun x hx => hN _ (h.2.1 x hx), fun c hc => hK _ (h.2.2 c hc)⟩

/-- The state `(B', N')` extends `(B, N)`, having dealt completely with the names `K`, and holds nothing that is not
reachable from `n`, except the names `V`. -/
structure SubsetEnv.Ext (S : SubsetEnv) (n : ScopeChain) (st st' : SubsetRes) (K : ScopeChain → Prop) : Prop where
  nodup : st'.1.Nodup
  binds : ∀ y b, Rec st.1 y b → Rec st'.1 y b
  names : ∀ x ∈ st.2, x ∈ st'.2
  fresh : ∀ x ∈ st'.2, x ∈ st.2 ∨ K x
  done : ∀ y, K y → S.Done st'.1 st'.2 K y
  sbinds : ∀ y b, Rec st'.1 y b → Rec st.1 y b ∨ (S.Reach n y ∧ b ∈ S.merge.bindlist y)
  snames : ∀ x ∈ st'.2, x ∈ st.2 ∨ ∃ y, S.Reach n y ∧ S.Reads y x

theorem SubsetEnv.Ext.trans {S : SubsetEnv} {n : ScopeChain} {a b c : SubsetRes} {K L : ScopeChain → Prop}
    (h1 : S.Ext n a b K) (h2 : S.Ext n b c L) : S.Ext n a c (fun x => K x ∨ L x) where
  nodup := h2.nodup
  binds y x h := h2.binds y x (h1.binds y x h)
  names x h := h2.names x (h1.names x h)
  fresh x h := by
    rcases h2.fresh x h with h | h
    · rcases h1.fresh x h with h | h
      · exact .inl h
      · exact .inr (.inl h)
    · exact .inr (.inr h)
  done y h := by
    rcases h with h | h
    · exact (h1.done y h).mono h2.binds h2.names (fun c hc => .inl hc)
    · exact (h2.done y h).mono (fun _ _ h => h) (fun _ h => h) (fun c hc => .inr hc)
  sbinds y x h := by
    rcases h2.sbinds y x h with h | h
    · exact h1.sbinds y x h
    · exact .inr h
  snames x h := by
    rcases h2.snames x h with h | h
    · exact h1.snames x h
    · exact .inr h

/-- What a call of `getBindSubset` for `n` with the names `V` already visited returns. -/
def SubsetEnv.CallOK (S : SubsetEnv) (n : ScopeChain) (V : List ScopeChain) (r : SubsetRes) : Prop :=
  ∃ K : ScopeChain → Prop, K n ∧ S.Ext n ([], V) r K

/-- Merging the result of a call into the state. -/
theorem ext_call (S : SubsetEnv) {n m : ScopeChain} {st : SubsetRes} {V : List ScopeChain} {r : SubsetRes} (hst : st.1.Nodup)
    (hr : S.CallOK m V r) (hm : S.Dep n m) (hV : ∀ x ∈ st.2, x ∈ V)
    (hV' : ∀ x ∈ V, x ∈ st.2 ∨ (x = m ∧ S.Reads n m)) :
    ∃ K : ScopeChain → Prop, K m ∧ S.Ext n st (dictlistmerge st.1 r.1, setUnion V r.2) K := by
  obtain ⟨K, hK, h⟩ := hr
  have hreach : ∀ y, S.Reach m y → S.Reach n y := fun y h => Relation.ReflTransGen.head hm h
  have hemp : ∀ y b, ¬ Rec [] y b := by rintro y b ⟨l, h, _⟩; simp [Dict.get?_nil] at h
  refine ⟨K, hK, ?_, ?_, ?_, ?_, ?_, ?_, ?_⟩
  · exact nodup_merge hst h.nodup
  · intro y b hb; exact (rec_merge h.nodup y b).mpr (.inl hb)
  · intro x hx; exact mem_setUnion.mpr (.inl (hV x hx))
  · intro x hx
    rcases mem_setUnion.mp hx with hx | hx
    · rcases hV' x hx with hx | hx
      · exact .inl hx
      · exact .inr (hx.1 ▸ hK)
    · rcases h.fresh x hx with hx | hx
      · rcases hV' x hx with hx | hx
        · exact .inl hx
        · exact .inr (hx.1 ▸ hK)
      · exact .inr hx
  · intro y hy
    exact (h.done y hy).mono (fun y b hb => (rec_merge h.nodup y b).mpr (.inr hb)) (fun x hx => mem_setUnion.mpr (.inr hx)) (fun _ h => h)
  · intro y b hb
    rcases (rec_merge h.nodup y b).mp hb with hb | hb
    · exact .inl hb
    · rcases h.sbinds y b hb with hb | hb
      · exact absurd hb (hemp y b)
      · exact .inr ⟨hreach y hb.1, hb.2⟩
  · have hVn : ∀ x ∈ V, x ∈ st.2 ∨ ∃ y, S.Reach n y ∧ S.Reads y x := by
      intro x hx
      rcases hV' x hx with hx | ⟨rfl, hx⟩
      · exact .inl hx
      · exact .inr ⟨n, Relation.ReflTransGen.refl, hx⟩
    intro x hx
    rcases mem_setUnion.mp hx with hx | hx
    · exact hVn x hx
    · rcases h.snames x hx with hx | ⟨y, hy, hx⟩
      · exact hVn x hx
      · exact .inr ⟨y, hreach y hy, hx⟩

theorem bindLoop_ok (S : SubsetEnv) {rec : Option ScopeChain → List ScopeChain → Py SubsetRes}
    (hrec : ∀ n V r, rec (some n) V = .ok r → S.CallOK n V r) (hnone : ∀ V r, rec none V ≠ .ok r) (n : ScopeChain) (bs : List Bind)
    (hbs : ∀ b ∈ bs, b ∈ S.merge.bindlist n) (st st' : SubsetRes) (hst : st.1.Nodup)
    (h : S.bindLoop rec n bs st = .ok st') :
    ∃ K : ScopeChain → Prop, S.Ext n st st' K ∧ (∀ b ∈ bs, Rec st'.1 n b) ∧
      ∀ b ∈ bs, S.foreignClock b = true → ∀ c, b.clockName = some c → K c := by
  induction bs generalizing st with
  | nil =>
    simp only [SubsetEnv.bindLoop, ok_inj] at h
    subst h
    exact ⟨fun _ => False, ⟨hst, fun _ _ h => h, fun _ h => h, fun _ h => .inl h, fun _ h => h.elim, fun _ _ h => .inl h,
      fun _ h => .inl h⟩, by simp, by simp⟩
  | cons b bs ih =>
    have hb : b ∈ S.merge.bindlist n := hbs b (by simp)
    have hbs' : ∀ b ∈ bs, b ∈ S.merge.bindlist n := fun x hx => hbs x (by simp [hx])
    have step : S.Ext n st (st.1.set n ((st.1.get? n).getD [] ++ [b]), st.2) (fun _ => False) := by
      refine ⟨Dict.nodup_set hst _ _, ?_, fun _ h => h, fun _ h => .inl h, fun _ h => h.elim, ?_, fun _ h => .inl h⟩
      · intro y x hx; exact (rec_add n y b x).mpr (.inl hx)
      · intro y x hx
        rcases (rec_add n y b x).mp hx with hx | ⟨rfl, rfl⟩
        · exact .inl hx
        · exact .inr ⟨Relation.ReflTransGen.refl, hb⟩
    have hrecb : Rec (st.1.set n ((st.1.get? n).getD [] ++ [b])) n b := (rec_add n n b b).mpr (.inr ⟨rfl, rfl⟩)
    rw [SubsetEnv.bindLoop] at h
    simp only at h
    by_cases hf : S.foreignClock b = true
    · simp only [hf, if_true, bind_ok] at h
      obtain ⟨r, hr, h⟩ := h
      cases hc : b.clockName with
      | none => rw [hc] at hr; exact absurd hr (hnone _ _)
      | some c =>
        rw [hc] at hr
        have hcb : S.ClockedBy n c := (foreign_clocked S).mpr ⟨b, hb, hf, hc⟩
        obtain ⟨K1, hK1, hE1⟩ := ext_call S (n := n) step.nodup (hrec _ _ _ hr) (.inr hcb) (fun _ h => h) (fun _ h => .inl h)
        obtain ⟨K2, hE2, hr2, hc2⟩ := ih hbs' _ hE1.nodup h
        refine ⟨_, (step.trans hE1).trans hE2, ?_, ?_⟩
        · intro b' hb'
          rcases List.mem_cons.mp hb' with rfl | hb'
          · exact hE2.binds _ _ (hE1.binds _ _ hrecb)
          · exact hr2 b' hb'
        · intro b' hb' hf' c' hc'
          rcases List.mem_cons.mp hb' with rfl | hb'
          · rw [hc] at hc'; cases hc'; exact .inl (.inr hK1)
          · exact .inr (hc2 b' hb' hf' c' hc')
    · simp only [hf] at h
      obtain ⟨K2, hE2, hr2, hc2⟩ := ih hbs' _ step.nodup h
      refine ⟨_, step.trans hE2, ?_, ?_⟩
      · intro b' hb'
        rcases List.mem_cons.mp hb' with rfl | hb'
        · exact hE2.binds _ _ hrecb
        · exact hr2 b' hb'
      · intro b' hb' hf' c' hc'
        rcases List.mem_cons.mp hb' with rfl | hb'
        · exact absurd hf' hf
        · exact .inr (hc2 b' hb' hf' c' hc')

theorem sourceLoop_ok (S : SubsetEnv) {rec : Option ScopeChain → List ScopeChain → Py SubsetRes}
    (hrec : ∀ n V r, rec (some n) V = .ok r → S.CallOK n V r) (n : ScopeChain) (V : List ScopeChain) (ss : List ScopeChain)
    (hss : ∀ s ∈ ss, S.Reads n s) (st st' : SubsetRes) (hst : st.1.Nodup) (hV : ∀ x ∈ V, x ∈ st.2)
    (h : S.sourceLoop rec V ss st = .ok st') :
    ∃ K : ScopeChain → Prop, S.Ext n st st' K ∧ ∀ s ∈ ss, s ∈ st'.2 := by
  induction ss generalizing st with
  | nil =>
    simp only [SubsetEnv.sourceLoop, ok_inj] at h
    subst h
    exact ⟨fun _ => False, ⟨hst, fun _ _ h => h, fun _ h => h, fun _ h => .inl h, fun _ h => h.elim, fun _ _ h => .inl h,
      fun _ h => .inl h⟩, by simp⟩
  | cons s ss ih =>
    have hs : S.Reads n s := hss s (by simp)
    have hss' : ∀ s ∈ ss, S.Reads n s := fun x hx => hss x (by simp [hx])
    rw [SubsetEnv.sourceLoop] at h
    by_cases hsV : s ∈ V
    · simp only [hsV, if_true] at h
      obtain ⟨K, hE, hn⟩ := ih hss' st hst hV h
      refine ⟨K, hE, ?_⟩
      intro x hx
      rcases List.mem_cons.mp hx with rfl | hx
      · exact hE.names _ (hV _ hsV)
      · exact hn x hx
    · simp only [hsV, if_false, bind_ok] at h
      obtain ⟨r, hr, h⟩ := h
      obtain ⟨K1, hK1, hE1⟩ := ext_call S (n := n) (st := st) hst (hrec _ _ _ hr) (.inl hs)
        (fun x hx => mem_setUnion.mpr (.inl hx))
        (fun x hx => by
          rcases mem_setUnion.mp hx with hx | hx
          · exact .inl hx
          · simp at hx; exact .inr ⟨hx, hs⟩)
      obtain ⟨K2, hE2, hn2⟩ := ih hss' _ hE1.nodup (fun x hx => hE1.names x (hV x hx)) h
      refine ⟨_, hE1.trans hE2, ?_⟩
      intro x hx
      rcases List.mem_cons.mp hx with rfl | hx
      · exact hE2.names _ (mem_setUnion.mpr (.inl (mem_setUnion.mpr (.inr (by simp)))))
      · exact hn2 x hx

theorem getBindSubset_ok (S : SubsetEnv) (hord : ∀ l x, x ∈ S.order l ↔ x ∈ l) (f : Nat) (n : ScopeChain) (V : List ScopeChain)
    (r : SubsetRes) (h : S.getBindSubset f (some n) V = .ok r) : S.CallOK n V r := by
  induction f generalizing n V r with
  | zero => cases h
  | succ f ih =>
    rw [SubsetEnv.getBindSubset] at h
    cases ht : S.merge.terms.get? n with
    | none => rw [ht] at h; cases h
    | some t =>
      rw [ht] at h
      simp only [bind_ok] at h
      obtain ⟨st, h1, src, h2, h3⟩ := h
      have hnone : ∀ V r, S.getBindSubset f none V ≠ .ok r := by
        intro V r; cases f <;> simp [SubsetEnv.getBindSubset]
      have hsrc : ∀ x, x ∈ src ↔ S.Reads n x := C28_bind_sources S.merge n src h2
      obtain ⟨K1, hE1, hr1, hc1⟩ := bindLoop_ok S ih hnone n (S.merge.bindlist n) (fun _ h => h) _ _ (by simp [Dict.Nodup]) h1
      obtain ⟨K2, hE2, hn2⟩ := sourceLoop_ok S ih n V (S.order src) (fun s hs => (hsrc s).mp ((hord _ _).mp hs)) _ _ hE1.nodup
        (fun x hx => hE1.names x hx) h3
      have hE := hE1.trans hE2
      refine ⟨fun x => x = n ∨ (K1 x ∨ K2 x), .inl rfl, hE.nodup, hE.binds, hE.names, ?_, ?_, hE.sbinds, hE.snames⟩
      · intro x hx
        rcases hE.fresh x hx with hx | hx
        · exact .inl hx
        · exact .inr (.inr hx)
      · intro y hy
        rcases hy with rfl | hy
        · refine ⟨fun b hb => hE2.binds _ _ (hr1 b hb), fun x hx => hn2 x ((hord _ _).mpr ((hsrc x).mpr hx)), ?_⟩
          intro c hc
          obtain ⟨b, hb, hf, hcn⟩ := (foreign_clocked S).mp hc
          exact .inr (.inl (hc1 b hb hf c hcn))
        · exact (hE.done y hy).mono (fun _ _ h => h) (fun _ h => h) (fun c hc => .inr hc)

theorem targetLoop_ok (S : SubsetEnv) (hord : ∀ l x, x ∈ S.order l ↔ x ∈ l) (f : Nat) (ts : List ScopeChain)
    (st st' : SubsetRes) (K0 : ScopeChain → Prop) (hst : st.1.Nodup) (h0 : ∀ x ∈ st.2, K0 x) (h1 : ∀ y, K0 y → S.Done st.1 st.2 K0 y)
    (h : S.targetLoop f ts st = .ok st') :
    st'.1.Nodup ∧
    (∃ K : ScopeChain → Prop, (∀ x, K0 x → K x) ∧ (∀ t ∈ ts, K t) ∧ (∀ x ∈ st'.2, K x) ∧ ∀ y, K y → S.Done st'.1 st'.2 K y) ∧
    (∀ y b, Rec st'.1 y b → Rec st.1 y b ∨ ∃ t ∈ ts, S.Reach t y ∧ b ∈ S.merge.bindlist y) ∧
    (∀ x ∈ st'.2, x ∈ st.2 ∨ ∃ t ∈ ts, ∃ y, S.Reach t y ∧ S.Reads y x) := by
  induction ts generalizing st K0 with
  | nil =>
    simp only [SubsetEnv.targetLoop, ok_inj] at h
    subst h
    exact ⟨hst, ⟨K0, fun _ h => h, by simp, h0, h1⟩, fun _ _ h => .inl h, fun _ h => .inl h⟩
  | cons t ts ih =>
    simp only [SubsetEnv.targetLoop, bind_ok] at h
    obtain ⟨r, hr, h⟩ := h
    obtain ⟨K, hKt, hE⟩ := getBindSubset_ok S hord f t st.2 r hr
    have hemp : ∀ y b, ¬ Rec [] y b := by rintro y b ⟨l, h, _⟩; simp [Dict.get?_nil] at h
    obtain ⟨g1, ⟨K', g2, g3, g4, g5⟩, g6, g7⟩ := ih (dictlistmerge st.1 r.1, setUnion st.2 r.2) (fun x => K0 x ∨ K x)
      (nodup_merge hst hE.nodup)
      (by
        intro x hx
        rcases mem_setUnion.mp hx with hx | hx
        · exact .inl (h0 x hx)
        · rcases hE.fresh x hx with hx | hx
          · exact .inl (h0 x hx)
          · exact .inr hx)
      (by
        intro y hy
        rcases hy with hy | hy
        · exact (h1 y hy).mono (fun y b hb => (rec_merge hE.nodup y b).mpr (.inl hb)) (fun x hx => mem_setUnion.mpr (.inl hx)) (fun _ h => .inl h)
        · exact (hE.done y hy).mono (fun y b hb => (rec_merge hE.nodup y b).mpr (.inr hb)) (fun x hx => mem_setUnion.mpr (.inr hx)) (fun _ h => .inr h))
      h
    refine ⟨g1, ⟨K', fun x hx => g2 x (.inl hx), ?_, g4, g5⟩, ?_, ?_⟩
    · intro x hx
      rcases List.mem_cons.mp hx with rfl | hx
      · exact g2 _ (.inr hKt)
      · exact g3 x hx
    · intro y b hb
      rcases g6 y b hb with hb | ⟨t', ht', hb⟩
      · rcases (rec_merge hE.nodup y b).mp hb with hb | hb
        · exact .inl hb
        · rcases hE.sbinds y b hb with hb | hb
          · exact absurd hb (hemp y b)
          · exact .inr ⟨t, by simp, hb⟩
      · exact .inr ⟨t', by simp [ht'], hb⟩
    · intro x hx
      rcases g7 x hx with hx | ⟨t', ht', hx⟩
      · rcases mem_setUnion.mp hx with hx | hx
        · exact .inl hx
        · rcases hE.snames x hx with hx | hx
          · exact .inl hx
          · exact .inr ⟨t, by simp, hx⟩
      · exact .inr ⟨t', by simp [ht'], hx⟩

/-- **C35** The subset of a list of targets is exact: an assignment `b` is recorded under a name `y` exactly when `y` is
one of the targets or a signal on which a target transitively depends (by reading it, or by being clocked by it) and `b`
is an assignment to `y`; the names returned are exactly the signals read by the targets and by what they depend on.
`order` is any order of iteration over sets. -/
theorem C35_subset_exact (S : SubsetEnv) (hord : ∀ l x, x ∈ S.order l ↔ x ∈ l) (fuel : Nat) (targets : List ScopeChain)
    (B : Dict ScopeChain (List Bind)) (N : List ScopeChain) (h : S.getBindSourceSubset fuel targets = .ok (B, N)) :
    (∀ y b, (∃ l, B.get? y = some l ∧ b ∈ l) ↔ (∃ t ∈ targets, S.Reach t y) ∧ ∃ bs, S.merge.binds.get? y = some bs ∧ b ∈ bs) ∧
    (∀ x, x ∈ N ↔ ∃ t ∈ targets, ∃ y, S.Reach t y ∧ S.Reads y x) := by
  have hemp : ∀ y b, ¬ Rec [] y b := by rintro y b ⟨l, h, _⟩; simp [Dict.get?_nil] at h
  obtain ⟨-, ⟨K, -, hK, hN, hD⟩, h3, h4⟩ := targetLoop_ok S hord fuel targets ([], []) (B, N) (fun _ => False)
    (by simp [Dict.Nodup]) (by simp) (by simp) h
  have hKr : ∀ t ∈ targets, ∀ y, S.Reach t y → K y := by
    intro t ht y hy
    induction hy with
    | refl => exact hK t ht
    | tail _ hd ih =>
      rcases hd with hd | hd
      · exact hN _ ((hD _ ih).2.1 _ hd)
      · exact (hD _ ih).2.2 _ hd
  constructor
  · intro y b
    constructor
    · intro hb
      rcases h3 y b hb with hb | ⟨t, ht, hr, hb⟩
      · exact absurd hb (hemp y b)
      · exact ⟨⟨t, ht, hr⟩, (mem_bindlist _ _ _).mp hb⟩
    · rintro ⟨⟨t, ht, hr⟩, hb⟩
      exact (hD y (hKr t ht y hr)).1 b ((mem_bindlist _ _ _).mpr hb)
  · intro x
    constructor
    · intro hx
      rcases h4 x hx with hx | hx
      · simp at hx
      · exact hx
    · rintro ⟨t, ht, y, hr, hx⟩
      exact (hD y (hKr t ht y hr)).2.1 x hx


/-! #### When it returns -/

/-- The names of `U` not in `V`. -/
def unseen (U V : List ScopeChain) : Nat := (U.filter (fun x => decide (x ∉ V))).length

theorem unseen_mono (U : List ScopeChain) {V W : List ScopeChain} (h : ∀ x ∈ V, x ∈ W) : unseen U W ≤ unseen U V := by
  unfold unseen
  induction U with
  | nil => simp
  | cons u U ih =>
    by_cases hw : u ∈ W
    · by_cases hv : u ∈ V
      · rw [List.filter_cons_of_neg (by simpa using hw), List.filter_cons_of_neg (by simpa using hv)]; exact ih
      · rw [List.filter_cons_of_neg (by simpa using hw), List.filter_cons_of_pos (by simpa using hv)]
        simp only [List.length_cons]; omega
    · have hv : u ∉ V := fun hv => hw (h u hv)
      rw [List.filter_cons_of_pos (by simpa using hw), List.filter_cons_of_pos (by simpa using hv)]
      simp only [List.length_cons]; omega

theorem unseen_lt (U : List ScopeChain) {V W : List ScopeChain} (h : ∀ x ∈ V, x ∈ W) {s : ScopeChain} (hU : s ∈ U) (hV : s ∉ V)
    (hW : s ∈ W) : unseen U W < unseen U V := by
  induction U with
  | nil => simp at hU
  | cons u U ih =>
    have hm := unseen_mono U h
    unfold unseen at hm ih ⊢
    by_cases hs : u = s
    · subst hs
      rw [List.filter_cons_of_neg (by simpa using hW), List.filter_cons_of_pos (by simpa using hV)]
      simp only [List.length_cons]; omega
    · have hU' : s ∈ U := by
        rcases List.mem_cons.mp hU with e | e
        · exact absurd e.symm hs
        · exact e
      have ih := ih hU'
      by_cases hw : u ∈ W
      · by_cases hv : u ∈ V
        · rw [List.filter_cons_of_neg (by simpa using hw), List.filter_cons_of_neg (by simpa using hv)]; exact ih
        · rw [List.filter_cons_of_neg (by simpa using hw), List.filter_cons_of_pos (by simpa using hv)]
          simp only [List.length_cons]; omega
      · have hv : u ∉ V := fun hv => hw (h u hv)
        rw [List.filter_cons_of_pos (by simpa using hw), List.filter_cons_of_pos (by simpa using hv)]
        simp only [List.length_cons]; omega

theorem bindLoop_total (S : SubsetEnv) {rec : Option ScopeChain → List ScopeChain → Py SubsetRes} (n : ScopeChain) (bs : List Bind)
    (st : SubsetRes)
    (hrec : ∀ b ∈ bs, S.foreignClock b = true → ∀ W, (∀ x ∈ st.2, x ∈ W) → ∃ r, rec b.clockName W = .ok r) :
    ∃ st', S.bindLoop rec n bs st = .ok st' ∧ ∀ x ∈ st.2, x ∈ st'.2 := by
  induction bs generalizing st with
  | nil => exact ⟨st, rfl, fun _ h => h⟩
  | cons b bs ih =>
    rw [SubsetEnv.bindLoop]
    simp only
    by_cases hf : S.foreignClock b = true
    · obtain ⟨r, hr⟩ := hrec b (by simp) hf st.2 (fun _ h => h)
      obtain ⟨st', h1, h2⟩ := ih (dictlistmerge (st.1.set n ((st.1.get? n).getD [] ++ [b])) r.1, setUnion st.2 r.2)
        (fun b' hb' hf' W hW => hrec b' (by simp [hb']) hf' W (fun x hx => hW x (mem_setUnion.mpr (.inl hx))))
      refine ⟨st', ?_, fun x hx => h2 x (mem_setUnion.mpr (.inl hx))⟩
      simp only [hf, if_true, hr, ok_bind]
      exact h1
    · obtain ⟨st', h1, h2⟩ := ih (st.1.set n ((st.1.get? n).getD [] ++ [b]), st.2) (fun b' hb' => hrec b' (by simp [hb']))
      exact ⟨st', by simp only [hf]; exact h1, h2⟩

theorem sourceLoop_total (S : SubsetEnv) {rec : Option ScopeChain → List ScopeChain → Py SubsetRes} (V ss : List ScopeChain)
    (st : SubsetRes)
    (hrec : ∀ s ∈ ss, s ∉ V → ∀ W, (∀ x ∈ st.2, x ∈ W) → s ∈ W → ∃ r, rec (some s) W = .ok r) :
    ∃ st', S.sourceLoop rec V ss st = .ok st' := by
  induction ss generalizing st with
  | nil => exact ⟨st, rfl⟩
  | cons s ss ih =>
    rw [SubsetEnv.sourceLoop]
    by_cases hs : s ∈ V
    · simp only [hs, if_true]
      exact ih st (fun s' hs' => hrec s' (by simp [hs']))
    · obtain ⟨r, hr⟩ := hrec s (by simp) hs (setUnion st.2 [s]) (fun x hx => mem_setUnion.mpr (.inl hx)) (mem_setUnion.mpr (.inr (by simp)))
      simp only [hs, if_false, hr, ok_bind]
      exact ih _ (fun s' hs' hV' W hW => hrec s' (by simp [hs']) hV' W
        (fun x hx => hW x (mem_setUnion.mpr (.inl (mem_setUnion.mpr (.inl hx))))))

/-- A netlist on which the extraction is defined: every signal read, and every foreign clock, is declared; the sources of
every declared signal can be collected (`C28_sources_total`: no high impedance, system call or delay); clocked assignments
name their clock. -/
structure SubsetEnv.Closed (S : SubsetEnv) : Prop where
  declared : ∀ x y, (∃ t, S.merge.terms.get? x = some t) → S.Dep x y → ∃ t, S.merge.terms.get? y = some t
  sources : ∀ x, (∃ t, S.merge.terms.get? x = some t) → ∃ s, S.merge.bindSources x = .ok s
  clocks : ∀ x, ∀ b ∈ S.merge.bindlist x, S.foreignClock b = true → ∃ c, b.clockName = some c

theorem getBindSubset_total (S : SubsetEnv) (hord : ∀ l x, x ∈ S.order l ↔ x ∈ l) (hC : S.Closed) (rank : ScopeChain → Nat)
    (hrank : ∀ x c, S.ClockedBy x c → rank c < rank x) (R : Nat) (hR : ∀ x, (∃ t, S.merge.terms.get? x = some t) → rank x ≤ R)
    (f : Nat) (n : ScopeChain) (V : List ScopeChain) (hn : ∃ t, S.merge.terms.get? n = some t)
    (hf : unseen (S.merge.terms.map (·.1)) V * (R + 1) + rank n < f) : ∃ r, S.getBindSubset f (some n) V = .ok r := by
  induction f generalizing n V with
  | zero => omega
  | succ f ih =>
    have hn' := hn
    obtain ⟨t, ht⟩ := hn
    obtain ⟨st, h1, h2⟩ := bindLoop_total S (rec := S.getBindSubset f) n (S.merge.bindlist n) ([], V) (by
      intro b hb hfb W hW
      obtain ⟨c, hc⟩ := hC.clocks n b hb hfb
      have hcb : S.ClockedBy n c := (foreign_clocked S).mpr ⟨b, hb, hfb, hc⟩
      rw [hc]
      apply ih c W (hC.declared n c hn' (.inr hcb))
      have h1 := Nat.mul_le_mul_right (R + 1) (unseen_mono (S.merge.terms.map (·.1)) hW)
      have h2 := hrank n c hcb
      simp only at h1
      omega)
    have h2 : ∀ x ∈ V, x ∈ st.2 := h2
    obtain ⟨src, hsrc⟩ := hC.sources n hn'
    have hreads : ∀ x, x ∈ src ↔ S.Reads n x := C28_bind_sources S.merge n src hsrc
    obtain ⟨st', h3⟩ := sourceLoop_total S (rec := S.getBindSubset f) V (S.order src) st (by
      intro s hs hV W hW hsW
      have hd := hC.declared n s hn' (.inl ((hreads s).mp ((hord _ _).mp hs)))
      apply ih s W hd
      have hsU : s ∈ S.merge.terms.map (·.1) := by
        obtain ⟨t, ht⟩ := hd
        exact List.mem_map.mpr ⟨_, Dict.mem_of_get? ht, rfl⟩
      have h1 := unseen_lt (S.merge.terms.map (·.1)) (fun x hx => hW x (h2 x hx)) hsU hV hsW
      have h3 := Nat.mul_le_mul_right (R + 1) (Nat.succ_le_of_lt h1)
      have h4 := hR s hd
      rw [Nat.succ_mul] at h3
      omega)
    refine ⟨st', ?_⟩
    rw [SubsetEnv.getBindSubset, ht]
    simp only [h1, ok_bind, hsrc, h3]

theorem targetLoop_total (S : SubsetEnv) (f : Nat) (ts : List ScopeChain) (st : SubsetRes)
    (h : ∀ t ∈ ts, ∀ V, ∃ r, S.getBindSubset f (some t) V = .ok r) : ∃ st', S.targetLoop f ts st = .ok st' := by
  induction ts generalizing st with
  | nil => exact ⟨st, rfl⟩
  | cons t ts ih =>
    obtain ⟨r, hr⟩ := h t (by simp) st.2
    simp only [SubsetEnv.targetLoop, hr, ok_bind]
    exact ih _ (fun t' ht' => h t' (by simp [ht']))

theorem rank_bound (rank : ScopeChain → Nat) (d : Dict ScopeChain Term) : ∃ R, ∀ x, (∃ t, d.get? x = some t) → rank x ≤ R := by
  refine ⟨(d.map (fun p => rank p.1)).sum, ?_⟩
  rintro x ⟨t, ht⟩
  have hm := Dict.mem_of_get? ht
  clear ht
  induction d with
  | nil => simp at hm
  | cons p d ih =>
    simp only [List.map_cons, List.sum_cons]
    rcases List.mem_cons.mp hm with rfl | hm
    · simp
    · have := ih hm; omega

/-- **C35** On a closed netlist whose foreign clocks are not circular (some ranking decreases from a register to its
clock) the extraction returns for every list of declared targets, at some recursion depth. -/
theorem C35_terminates (S : SubsetEnv) (hord : ∀ l x, x ∈ S.order l ↔ x ∈ l) (hC : S.Closed) (rank : ScopeChain → Nat)
    (hrank : ∀ x c, S.ClockedBy x c → rank c < rank x) :
    ∃ fuel, ∀ targets, (∀ t ∈ targets, ∃ tm, S.merge.terms.get? t = some tm) → ∃ r, S.getBindSourceSubset fuel targets = .ok r := by
  obtain ⟨R, hR⟩ := rank_bound rank S.merge.terms
  refine ⟨S.merge.terms.length * (R + 1) + R + 1, ?_⟩
  intro targets ht
  apply targetLoop_total
  intro t htm V
  apply getBindSubset_total S hord hC rank hrank R hR _ _ _ (ht t htm)
  have h1 : unseen (S.merge.terms.map (·.1)) V ≤ S.merge.terms.length := by
    unfold unseen
    have := List.length_filter_le (fun x => decide (x ∉ V)) (S.merge.terms.map (·.1))
    simpa using this
  have h2 := Nat.mul_le_mul_right (R + 1) h1
  have h3 := hR t (ht t htm)
  omega

theorem bindLoop_calls (S : SubsetEnv) {rec : Option ScopeChain → List ScopeChain → Py SubsetRes} (n : ScopeChain) (bs : List Bind)
    (st st' : SubsetRes) (h : S.bindLoop rec n bs st = .ok st') (b : Bind) (hb : b ∈ bs) (hf : S.foreignClock b = true) :
    ∃ V r, rec b.clockName V = .ok r := by
  induction bs generalizing st with
  | nil => simp at hb
  | cons a bs ih =>
    rw [SubsetEnv.bindLoop] at h
    simp only at h
    by_cases hfa : S.foreignClock a = true
    · simp only [hfa, if_true, bind_ok] at h
      obtain ⟨r, hr, h⟩ := h
      rcases List.mem_cons.mp hb with rfl | hb
      · exact ⟨_, _, hr⟩
      · exact ih _ h hb
    · simp only [hfa] at h
      rcases List.mem_cons.mp hb with rfl | hb
      · exact absurd hf hfa
      · exact ih _ h hb

/-- **C35** fails to return on circular clocks: from a set of signals each of which is clocked by a signal of the set (for
instance a register clocked by itself, or a ring of registers clocking each other), the extraction never returns,
whatever the recursion depth. -/
theorem C35_clock_cycle_never_returns (S : SubsetEnv) (C : ScopeChain → Prop) (hC : ∀ x, C x → ∃ c, S.ClockedBy x c ∧ C c)
    (x : ScopeChain) (hx : C x) (fuel : Nat) (rest : List ScopeChain) (r : SubsetRes) :
    S.getBindSourceSubset fuel (x :: rest) ≠ .ok r := by
  have key : ∀ f x V r, C x → S.getBindSubset f (some x) V ≠ .ok r := by
    intro f
    induction f with
    | zero => intro x V r _ h; cases h
    | succ f ih =>
      intro x V r hx h
      rw [SubsetEnv.getBindSubset] at h
      cases ht : S.merge.terms.get? x with
      | none => rw [ht] at h; cases h
      | some t =>
        rw [ht] at h
        simp only [bind_ok] at h
        obtain ⟨st, h1, -⟩ := h
        obtain ⟨c, hc, hcC⟩ := hC x hx
        obtain ⟨b, hb, hf, hcn⟩ := (foreign_clocked S).mp hc
        obtain ⟨V', r', h'⟩ := bindLoop_calls S _ _ _ _ h1 b hb hf
        rw [hcn] at h'
        exact ih c V' r' hcC h'
  intro h
  simp only [SubsetEnv.getBindSourceSubset, SubsetEnv.targetLoop, bind_ok] at h
  obtain ⟨r', h', -⟩ := h
  exact key _ _ _ _ hx h'

/-- `assign y = a & q; always @(posedge d) q <= ~q; always @(posedge k) d <= ~d` with the foreign clock `d`. -/
def c35binds : Dict ScopeChain (List Bind) :=
  [c33b 'y' (.op .and [.term (c33n 'a'), .term (c33n 'q')]) none,
   c33b 'q' (.op .unot [.term (c33n 'q')]) (some { clockName := some (c33n 'd'), clockEdge := some "posedge".toList }),
   c33b 'd' (.op .unot [.term (c33n 'd')]) c33clk,
   c33b 'z' (.term (c33n 'a')) none]
def c35terms : Dict ScopeChain Term := [c33t 'y' [.wire], c33t 'a' [.input], c33t 'q' [.reg], c33t 'd' [.reg], c33t 'k' [.input], c33t 'z' [.wire]]
def c35env (terms : Dict ScopeChain Term) (binds : Dict ScopeChain (List Bind)) (clk : Char) : SubsetEnv :=
  ⟨mergeEnvOf ⟨terms, [], 32, fun _ => none⟩ 20 1 binds binds, ['m'], [clk], List.reverse⟩

/-- Non-vacuity: the target `y` pulls in `q` (read) and `d` (the clock of `q`), but not `z`. -/
example : (c35env c35terms c35binds 'k').getBindSourceSubset 20 [c33n 'y'] =
    .ok ([c35binds[0], c35binds[1], c35binds[2]], [c33n 'q', c33n 'd', c33n 'a']) ∧
    (∀ l x, x ∈ (c35env c35terms c35binds 'k').order l ↔ x ∈ l) := by
  refine ⟨by decide +kernel, fun l x => by simp [c35env]⟩

/-- **C35** in full (the names returned include every signal on which a target depends) is false: the clock `k`, when it is
not the declared clock of the top module, is followed but is not among the names returned, unless something reads it. -/
theorem C35_clock_not_returned_false :
    ∃ (S : SubsetEnv) (fuel : Nat) (x c : ScopeChain) (r : SubsetRes), (∀ l x, x ∈ S.order l ↔ x ∈ l) ∧
      S.getBindSourceSubset fuel [x] = .ok r ∧ S.ClockedBy x c ∧ c ∉ r.2 := by
  refine ⟨c35env c35terms c35binds 'j', 20, c33n 'd', c33n 'k', ([c35binds[2]], [c33n 'd']), fun l x => by simp [c35env],
    by decide +kernel, ?_, by decide⟩
  rw [foreign_clocked]
  exact ⟨_, by simp [MergeEnv.bindlist, c35env, mergeEnvOf, c35binds, Dict.get?, c33b, c33n]; rfl, by decide +kernel, by decide⟩

/-- Non-vacuity of `C35_clock_cycle_never_returns`: `always @(posedge q) q <= ~q`. -/
example : ∀ x, x = c33n 'q' → ∃ c, (c35env [c33t 'q' [.reg]] [c33b 'q' (.op .unot [.term (c33n 'q')])
    (some { clockName := some (c33n 'q'), clockEdge := some "posedge".toList })] 'k').ClockedBy x c ∧ c = c33n 'q' := by
  rintro x rfl
  exact ⟨c33n 'q', ⟨_, rfl, _, List.mem_singleton.mpr rfl, _, rfl, rfl, .inl rfl, by decide⟩, rfl⟩

/-- Non-vacuity of `C35_terminates`: the hypotheses hold of the netlist above, with `d` ranked below `q`. -/
example : (c35env c35terms c35binds 'k').Closed ∧
    ∀ x c, (c35env c35terms c35binds 'k').ClockedBy x c →
      (if c = c33n 'q' then 1 else 0) < (if x = c33n 'q' then 1 else 0) := by
  have hkeys : ∀ x t, (c35env c35terms c35binds 'k').merge.terms.get? x = some t →
      x = c33n 'y' ∨ x = c33n 'a' ∨ x = c33n 'q' ∨ x = c33n 'd' ∨ x = c33n 'k' ∨ x = c33n 'z' := by
    intro x t h
    have := Dict.mem_of_get? h
    simp only [c35env, mergeEnvOf, c35terms, c33t, List.mem_cons, Prod.mk.injEq, List.not_mem_nil, or_false] at this
    rcases this with h | h | h | h | h | h <;> simp [h.1]
  have hclk : ∀ x c, (c35env c35terms c35binds 'k').ClockedBy x c → x = c33n 'q' ∧ c = c33n 'd' := by
    rintro x c ⟨bs, h, b, hb, a, ha, hc, -, hp⟩
    have := Dict.mem_of_get? h
    simp only [c35env, mergeEnvOf, c35binds, c33b, List.mem_cons, Prod.mk.injEq, List.not_mem_nil, or_false] at this
    rcases this with ⟨rfl, rfl⟩ | ⟨rfl, rfl⟩ | ⟨rfl, rfl⟩ | ⟨rfl, rfl⟩ <;> (rw [List.mem_singleton] at hb; subst hb)
    · simp at ha
    · simp only [Option.some.injEq] at ha; subst ha; simp only [Option.some.injEq] at hc; exact ⟨rfl, hc.symm⟩
    · simp only [c33clk, Option.some.injEq] at ha
      subst ha
      simp only [Option.some.injEq] at hc
      subst hc
      exact absurd hp (by decide)
    · simp at ha
  have hsrc : ∀ x, (∃ t, (c35env c35terms c35binds 'k').merge.terms.get? x = some t) →
      ∃ s, (c35env c35terms c35binds 'k').merge.bindSources x = .ok s ∧
        ∀ y ∈ s, ∃ t, (c35env c35terms c35binds 'k').merge.terms.get? y = some t := by
    rintro x ⟨t, h⟩
    rcases hkeys x t h with rfl | rfl | rfl | rfl | rfl | rfl
    · exact ⟨[c33n 'a', c33n 'q'], by decide +kernel, by simp only [List.mem_cons, List.not_mem_nil, or_false]; rintro y (rfl | rfl) <;> exact ⟨_, rfl⟩⟩
    · exact ⟨[], by decide +kernel, by simp⟩
    · exact ⟨[c33n 'q'], by decide +kernel, by simp only [List.mem_singleton]; rintro y rfl; exact ⟨_, rfl⟩⟩
    · exact ⟨[c33n 'd'], by decide +kernel, by simp only [List.mem_singleton]; rintro y rfl; exact ⟨_, rfl⟩⟩
    · exact ⟨[], by decide +kernel, by simp⟩
    · exact ⟨[c33n 'a'], by decide +kernel, by simp only [List.mem_singleton]; rintro y rfl; exact ⟨_, rfl⟩⟩
  refine ⟨⟨?_, ?_, ?_⟩, ?_⟩
  · rintro x y hx (h | h)
    · obtain ⟨s, hs, hy⟩ := hsrc x hx
      exact hy y ((C28_bind_sources _ _ _ hs y).mpr h)
    · obtain ⟨-, rfl⟩ := hclk x y h
      exact ⟨_, rfl⟩
  · intro x hx
    obtain ⟨s, hs, -⟩ := hsrc x hx
    exact ⟨s, hs⟩
  · intro x b hb hf
    obtain ⟨bs, h, hb⟩ := (mem_bindlist _ _ _).mp hb
    have := Dict.mem_of_get? h
    simp only [c35env, mergeEnvOf, c35binds, c33b, List.mem_cons, Prod.mk.injEq, List.not_mem_nil, or_false] at this
    rcases this with ⟨rfl, rfl⟩ | ⟨rfl, rfl⟩ | ⟨rfl, rfl⟩ | ⟨rfl, rfl⟩ <;> (rw [List.mem_singleton] at hb; subst hb)
    · exact absurd hf (by decide)
    · exact ⟨_, rfl⟩
    · exact ⟨_, rfl⟩
    · exact absurd hf (by decide)
  · intro x c h
    obtain ⟨rfl, rfl⟩ := hclk x c h
    decide

/-! ### C61 -/

theorem discTerms_ok (S : MergeEnv) (ns : List ScopeChain) (d d' : Dict ScopeChain Term)
    (hd : ∀ x t, d.get? x = some t → S.terms.get? x = some t) (h : S.discTerms ns d = .ok d') :
    (∀ x t, d'.get? x = some t → S.terms.get? x = some t) ∧
    ∀ x, d'.has x = true ↔ d.has x = true ∨ (x ∈ ns ∧ ∃ t, S.terms.get? x = some t ∧ t.isParam = false) := by
  induction ns generalizing d with
  | nil => simp only [MergeEnv.discTerms, ok_inj] at h; subst h; exact ⟨hd, by simp⟩
  | cons n ns ih =>
    rw [MergeEnv.discTerms] at h
    cases ht : S.terms.get? n with
    | none => rw [ht] at h; cases h
    | some t =>
      rw [ht] at h
      simp only at h
      by_cases hp : t.isParam = true
      · simp only [hp, if_true] at h
        obtain ⟨h1, h2⟩ := ih d hd h
        refine ⟨h1, fun x => ?_⟩
        rw [h2]
        refine or_congr Iff.rfl ?_
        constructor
        · rintro ⟨hx, h⟩; exact ⟨by simp [hx], h⟩
        · rintro ⟨hx, t', h, h'⟩
          rcases List.mem_cons.mp hx with rfl | hx
          · rw [ht] at h; cases h; rw [hp] at h'; cases h'
          · exact ⟨hx, t', h, h'⟩
      · simp only [hp] at h
        obtain ⟨h1, h2⟩ := ih (d.set n t) (by
          intro x t' hx
          rw [Dict.get?_set] at hx
          by_cases hnx : n = x
          · subst hnx; simp at hx; subst hx; exact ht
          · simp [hnx] at hx; exact hd x t' hx) h
        refine ⟨h1, fun x => ?_⟩
        rw [h2, Dict.has_eq, Dict.has_eq, Dict.get?_set]
        by_cases hnx : n = x
        · subst hnx
          simp only [if_true, Option.isSome_some, true_or, true_iff]
          exact .inr ⟨by simp, t, ht, by simpa using hp⟩
        · have hxn : ¬ x = n := fun e => hnx e.symm
          simp [hnx, hxn]

/-- What the classification holds after the assignments `binds` were added to `d`. -/
structure Classified (S : MergeEnv) (d d' : Discretion) (binds : ScopeChain → Bind → Prop) : Prop where
  wires : ∀ y b, binds y b → ∃ t, S.terms.get? y = some t ∧ .wire ∈ t.types
  assign : ∀ y b, Rec d'.assign y b ↔ Rec d.assign y b ∨ binds y b
  clockedge : d'.clockedge = d.clockedge
  combination : d'.combination = d.combination
  parameter : d'.parameter = d.parameter
  terms : ∀ y, d'.terms.has y = true ↔ d.terms.has y = true ∨ ∃ b, binds y b

theorem rec_addToSet (d : Dict ScopeChain (List Bind)) (l y : ScopeChain) (r b : Bind) :
    Rec (addToSet d l r) y b ↔ Rec d y b ∨ (y = l ∧ b = r) := by
  unfold Rec addToSet
  rw [Dict.get?_set]
  by_cases h : l = y
  · subst h
    cases d.get? l <;> simp [mem_setUnion]
  · have h2 : ¬ y = l := fun e => h e.symm
    simp [h, h2]

theorem discBind_ok (S : MergeEnv) (d d' : Discretion) (l : ScopeChain) (r : Bind) (h : S.discBind d l r = .ok d') :
    Classified S d d' (fun y b => y = l ∧ b = r) := by
  unfold MergeEnv.discBind MergeEnv.assignType at h
  cases ht : S.terms.get? l with
  | none => rw [ht] at h; cases h
  | some t =>
    rw [ht] at h
    by_cases hw : t.types.contains .wire = true
    · simp only [hw, if_true, ok_bind] at h
      have hh : ∀ y, (y = l → d'.terms.has y = true) →
          (y ≠ l → d'.terms.has y = d.terms.has y) → (d'.terms.has y = true ↔ d.terms.has y = true ∨ ∃ b : Bind, y = l ∧ b = r) := by
        intro y h1 h2
        by_cases e : y = l
        · subst e; simp [h1 rfl]
        · simp [h2 e, e]
      by_cases hl : d.terms.has l = true
      · simp only [hl, if_true, ok_inj] at h
        subst h
        refine ⟨?_, fun y b => rec_addToSet _ _ _ _ _, rfl, rfl, rfl, fun y => hh y ?_ ?_⟩
        · rintro y b ⟨rfl, rfl⟩; exact ⟨t, ht, by simpa using hw⟩
        · rintro rfl; exact hl
        · intro _; rfl
      · simp only [hl, Bool.false_eq_true, if_false, ok_inj] at h
        subst h
        refine ⟨?_, fun y b => rec_addToSet _ _ _ _ _, rfl, rfl, rfl, fun y => hh y ?_ ?_⟩
        · rintro y b ⟨rfl, rfl⟩; exact ⟨t, ht, by simpa using hw⟩
        · rintro rfl; simp [Dict.has_eq, Dict.get?_set]
        · intro e
          have e' : ¬ l = y := fun h => e h.symm
          simp [Dict.has_eq, Dict.get?_set, e']
    · simp only [hw] at h
      cases h

theorem Classified.trans {S : MergeEnv} {a b c : Discretion} {P Q : ScopeChain → Bind → Prop} (h1 : Classified S a b P)
    (h2 : Classified S b c Q) : Classified S a c (fun y x => P y x ∨ Q y x) where
  wires y x h := h.elim (h1.wires y x) (h2.wires y x)
  assign y x := by rw [h2.assign, h1.assign, or_assoc]
  clockedge := h2.clockedge.trans h1.clockedge
  combination := h2.combination.trans h1.combination
  parameter := h2.parameter.trans h1.parameter
  terms y := by rw [h2.terms, h1.terms, or_assoc, exists_or]

theorem Classified.congr {S : MergeEnv} {a b : Discretion} {P Q : ScopeChain → Bind → Prop} (h : Classified S a b P)
    (hpq : ∀ y x, P y x ↔ Q y x) : Classified S a b Q := by
  have : P = Q := by funext y x; exact propext (hpq y x)
  rw [← this]; exact h

theorem Classified.refl (S : MergeEnv) (a : Discretion) : Classified S a a (fun _ _ => False) :=
  ⟨by simp, by simp, rfl, rfl, rfl, by simp⟩

theorem discBinds_ok (S : MergeEnv) (l : ScopeChain) (rs : List Bind) (d d' : Discretion) (h : S.discBinds l rs d = .ok d') :
    Classified S d d' (fun y b => y = l ∧ b ∈ rs) := by
  induction rs generalizing d with
  | nil => simp only [MergeEnv.discBinds, ok_inj] at h; subst h; exact (Classified.refl S d).congr (by simp)
  | cons r rs ih =>
    simp only [MergeEnv.discBinds, bind_ok] at h
    obtain ⟨d1, h1, h2⟩ := h
    refine ((discBind_ok S _ _ _ _ h1).trans (ih _ h2)).congr ?_
    intro y x
    simp only [List.mem_cons, and_or_left]

theorem discAll_ok (S : MergeEnv) (bs : Dict ScopeChain (List Bind)) (d d' : Discretion) (h : S.discAll bs d = .ok d') :
    Classified S d d' (fun y b => ∃ rs, (y, rs) ∈ bs ∧ b ∈ rs) := by
  induction bs generalizing d with
  | nil => simp only [MergeEnv.discAll, ok_inj] at h; subst h; exact (Classified.refl S d).congr (by simp)
  | cons p bs ih =>
    obtain ⟨l, rs⟩ := p
    simp only [MergeEnv.discAll, bind_ok] at h
    obtain ⟨d1, h1, h2⟩ := h
    refine ((discBinds_ok S _ _ _ _ h1).trans (ih _ h2)).congr ?_
    intro y x
    simp only [List.mem_cons, Prod.mk.injEq]
    constructor
    · rintro (⟨rfl, h⟩ | ⟨rs', h, h'⟩)
      · exact ⟨rs, .inl ⟨rfl, rfl⟩, h⟩
      · exact ⟨rs', .inr h, h'⟩
    · rintro ⟨rs', ⟨rfl, rfl⟩ | h, h'⟩
      · exact .inl ⟨rfl, h'⟩
      · exact .inr ⟨rs', h, h'⟩

/-- **C61** (partial: the classification when it returns) The assignments given are all returned as `assign`, nothing else
is, the other three classes are empty, every signal assigned is a wire, and the signals returned are the non-parameters
among the names and the signals assigned.  Missing: `C61_nonwire_raises` shows that a register, a port of another
type or a parameter makes the classification fail instead of being returned in its class. -/
theorem C61_classification_partial (S : MergeEnv) (binds : Dict ScopeChain (List Bind)) (names : List ScopeChain) (d : Discretion)
    (h : S.discretion binds names = .ok d) :
    (∀ y b, (∃ l, d.assign.get? y = some l ∧ b ∈ l) ↔ ∃ rs, (y, rs) ∈ binds ∧ b ∈ rs) ∧
    d.clockedge = [] ∧ d.combination = [] ∧ d.parameter = [] ∧
    (∀ y rs, (y, rs) ∈ binds → rs ≠ [] → ∃ t, S.terms.get? y = some t ∧ .wire ∈ t.types) ∧
    (∀ y, (∃ t, d.terms.get? y = some t) ↔ (y ∈ names ∧ ∃ t, S.terms.get? y = some t ∧ t.isParam = false) ∨
      ∃ rs, (y, rs) ∈ binds ∧ rs ≠ []) := by
  simp only [MergeEnv.discretion, bind_ok] at h
  obtain ⟨ts, h1, h2⟩ := h
  have hC := discAll_ok S binds _ d h2
  have hT := (discTerms_ok S names [] ts (by simp [Dict.get?_nil]) h1).2
  have hemp : ∀ y b, ¬ Rec [] y b := by rintro y b ⟨l, h, _⟩; simp [Dict.get?_nil] at h
  refine ⟨?_, hC.clockedge, hC.combination, hC.parameter, ?_, ?_⟩
  · intro y b
    have := hC.assign y b
    simp only [hemp, false_or] at this
    exact this
  · intro y rs hy hrs
    obtain ⟨b, bs, rfl⟩ := List.exists_cons_of_ne_nil hrs
    exact hC.wires y b ⟨_, hy, by simp⟩
  · intro y
    have h3 := hC.terms y
    simp only [hT] at h3
    have h4 : (∃ t, d.terms.get? y = some t) ↔ d.terms.has y = true := by
      rw [Dict.has_eq]; cases d.terms.get? y <;> simp
    rw [h4, h3]
    refine or_congr (by simp [Dict.has]) ?_
    constructor
    · rintro ⟨b, rs, h, hb⟩; exact ⟨rs, h, List.ne_nil_of_mem hb⟩
    · rintro ⟨rs, h, hb⟩
      obtain ⟨b, bs, rfl⟩ := List.exists_cons_of_ne_nil hb
      exact ⟨b, _, h, by simp⟩

/-- **C61** is false: as soon as one assignment drives a signal which is not of type `Wire` (a register, an integer, a
parameter, an output or an instance's input port), `getEntire` does not return: with all signals declared it raises
AttributeError, for every such design. -/
theorem C61_nonwire_raises (S : MergeEnv) (hdecl : ∀ p ∈ S.rbinds, ∃ t, S.terms.get? p.1 = some t)
    (y : ScopeChain) (rs : List Bind) (hy : (y, rs) ∈ S.rbinds) (hrs : rs ≠ []) (t : Term)
    (ht : S.terms.get? y = some t) (hw : .wire ∉ t.types) : S.getEntire = .error .attribute := by
  have hterms : ∀ ns (d : Dict ScopeChain Term), (∀ n ∈ ns, ∃ t, S.terms.get? n = some t) → ∃ d', S.discTerms ns d = .ok d' := by
    intro ns
    induction ns with
    | nil => intro d _; exact ⟨d, rfl⟩
    | cons n ns ih =>
      intro d h
      obtain ⟨t, ht⟩ := h n (by simp)
      simp only [MergeEnv.discTerms, ht]
      split <;> exact ih _ (fun m hm => h m (by simp [hm]))
  have hbind : ∀ d l r, (∃ t, S.terms.get? l = some t) → (∃ d', S.discBind d l r = .ok d') ∨ S.discBind d l r = .error .attribute := by
    rintro d l r ⟨t, ht⟩
    simp only [MergeEnv.discBind, MergeEnv.assignType, ht]
    by_cases hw : t.types.contains .wire = true
    · simp only [hw, if_true, ok_bind]
      split <;> exact .inl ⟨_, rfl⟩
    · simp only [hw]
      exact .inr rfl
  have hbinds : ∀ rs l d, (∃ t, S.terms.get? l = some t) → (∃ d', S.discBinds l rs d = .ok d') ∨ S.discBinds l rs d = .error .attribute := by
    intro rs
    induction rs with
    | nil => intro l d _; exact .inl ⟨d, rfl⟩
    | cons r rs ih =>
      intro l d h
      rcases hbind d l r h with ⟨d', h'⟩ | h'
      · simp only [MergeEnv.discBinds, h', ok_bind]; exact ih l d' h
      · simp only [MergeEnv.discBinds, h']; exact .inr rfl
  have hall : ∀ (bs : Dict ScopeChain (List Bind)) d, (∀ p ∈ bs, ∃ t, S.terms.get? p.1 = some t) → (y, rs) ∈ bs →
      S.discAll bs d = .error .attribute := by
    intro bs
    induction bs with
    | nil => intro d _ h; simp at h
    | cons p bs ih =>
      intro d hd hm
      obtain ⟨l, ls⟩ := p
      rcases hbinds ls l d (hd (l, ls) (by simp)) with ⟨d', h'⟩ | h'
      · rcases List.mem_cons.mp hm with e | hm
        · exfalso
          simp only [Prod.mk.injEq] at e
          obtain ⟨rfl, rfl⟩ := e
          obtain ⟨b, bs', rfl⟩ := List.exists_cons_of_ne_nil hrs
          obtain ⟨t', h1, h2⟩ := (discBinds_ok S _ _ _ _ h').wires y b ⟨rfl, by simp⟩
          rw [ht] at h1; cases h1; exact hw h2
        · simp only [MergeEnv.discAll, h', ok_bind]
          exact ih d' (fun p hp => hd p (by simp [hp])) hm
      · simp only [MergeEnv.discAll, h']; rfl
  obtain ⟨ts, h1⟩ := hterms (S.terms.map (·.1)) [] (by
    intro n hn
    obtain ⟨p, hp, rfl⟩ := List.mem_map.mp hn
    have : S.terms.has p.1 = true := by simp only [Dict.has, List.any_eq_true]; exact ⟨p, hp, by simp⟩
    rw [Dict.has_eq] at this
    exact Option.isSome_iff_exists.mp this)
  simp only [MergeEnv.getEntire, MergeEnv.discretion, h1, ok_bind]
  exact hall S.rbinds _ hdecl hy

/-- Non-vacuity: two wires are classified; the register design above raises. -/
example : ((c35env c35terms [c35binds[0], c35binds[3]] 'k').merge.getEntire.toOption.map (fun d => (d.assign, d.terms.map (·.1)))) =
      some ([c35binds[0], c35binds[3]], [c33n 'y', c33n 'a', c33n 'q', c33n 'd', c33n 'k', c33n 'z']) ∧
    (∃ y rs t, (y, rs) ∈ (c35env c35terms c35binds 'k').merge.rbinds ∧ rs ≠ [] ∧
      (c35env c35terms c35binds 'k').merge.terms.get? y = some t ∧ .wire ∉ t.types) ∧
    (∀ p ∈ (c35env c35terms c35binds 'k').merge.rbinds, ∃ t, (c35env c35terms c35binds 'k').merge.terms.get? p.1 = some t) := by
  refine ⟨by decide +kernel, ⟨c33n 'q', _, _, List.mem_cons_of_mem _ (List.mem_cons_self ..), by simp [c33b], rfl, by decide⟩, ?_⟩
  simp only [c35env, mergeEnvOf, c35binds, List.mem_cons, List.not_mem_nil, or_false]
  rintro p (rfl | rfl | rfl | rfl) <;> exact ⟨_, rfl⟩

end Pyv
