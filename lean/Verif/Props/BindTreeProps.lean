import Verif.Binder
import Verif.Props.TransitionProps
import Verif.Props.ReorderProps
/-
  C56: the tree of an assignment made under conditions (bindvisitor.py `makeBind`).
-/
namespace Pyv

/-! ### Specification -/

/-- The value an assignment tree gives: unknown (`none`), nothing is assigned (`some none`), or a value.  Conditionals on
top of the tree are decided from the root; a missing side assigns nothing. -/
def sched (ρ : Env) : DF → Option (Option (Int × Int))
  | .none => some none
  | .branch c t f => do
    let b ← sem ρ c
    if b.1 ≠ 0 then sched ρ t else sched ρ f
  | t => (sem ρ t).map some

/-- Whether all the conditions on a path have the required truth value, decided from the first one; unknown when a
condition that is reached is. -/
def pathDec (ρ : Env) : CondPath → Option Bool
  | [] => some true
  | (c, b) :: ps => do
    let v ← sem ρ c
    if decide (v.1 ≠ 0) = b then pathDec ρ ps else some false

/-- The subtree at the end of a path of conditions, if the conditionals on top of the tree have these conditions. -/
def subAt : DF → CondPath → Option DF
  | t, [] => some t
  | .branch c t f, (p, b) :: ps => if p = c then (if b then subAt t ps else subAt f ps) else none
  | _, _ :: _ => none

/-- The longest part of a path that the tree follows, and the rest. -/
def splitAlong : DF → CondPath → CondPath × CondPath
  | _, [] => ([], [])
  | .branch c t f, (p, b) :: ps =>
    if p = c then
      let r := if b then splitAlong t ps else splitAlong f ps
      ((p, b) :: r.1, r.2)
    else ([], (p, b) :: ps)
  | _, ps => ([], ps)

/-! ### Lemmas -/

theorem sched_branch {ρ c t f} :
    sched ρ (.branch c t f) = (do let b ← sem ρ c; if b.1 ≠ 0 then sched ρ t else sched ρ f) := rfl

theorem sched_leaf {ρ t} (hn : t ≠ .none) (hb : t.isBranch = false) : sched ρ t = (sem ρ t).map some := by
  cases t <;> first | rfl | exact absurd rfl hn | cases hb

theorem splitAlong_append (t : DF) (ps : CondPath) : (splitAlong t ps).1 ++ (splitAlong t ps).2 = ps := by
  induction ps generalizing t with
  | nil => simp [splitAlong]
  | cons a ps ih =>
    obtain ⟨p, b⟩ := a
    cases t <;> simp only [splitAlong, List.nil_append]
    split
    · cases b <;> simp [ih]
    · simp

theorem diff_split (t : DF) (ps : CondPath) :
    diffBranchTree t ps = (((subAt t (splitAlong t ps).1).getD .none), (splitAlong t ps).2, (splitAlong t ps).1.map (·.2)) := by
  induction ps generalizing t with
  | nil => cases t <;> simp [diffBranchTree, splitAlong, subAt]
  | cons a ps ih =>
    obtain ⟨p, b⟩ := a
    cases t <;> simp only [diffBranchTree, splitAlong, subAt, Option.getD_some, List.map_nil]
    rename_i c t f
    by_cases h : p = c
    · subst h
      cases b <;> simp [ih, subAt]
    · simp [h, subAt]

theorem subAt_split (t : DF) (ps : CondPath) : ∃ r, subAt t (splitAlong t ps).1 = some r := by
  induction ps generalizing t with
  | nil => exact ⟨t, by simp [splitAlong, subAt]⟩
  | cons a ps ih =>
    obtain ⟨p, b⟩ := a
    cases t <;> simp only [splitAlong, subAt, Option.some.injEq, exists_eq']
    rename_i c t f
    by_cases h : p = c
    · subst h
      cases b <;> simp [ih, subAt]
    · simp [h, subAt]

/-- Put a tree at the end of a path that exists. -/
theorem append_sub {t : DF} {ps : CondPath} {r : DF} (h : subAt t ps = some r) (a : DF) :
    ∃ t', appendBranchTree t (ps.map (·.2)) a = .ok t' ∧ subAt t' ps = some a ∧
      (∀ ρ, pathDec ρ ps = some true → sched ρ t' = sched ρ a ∧ sched ρ t = sched ρ r) ∧
      (∀ ρ, pathDec ρ ps = some false → sched ρ t' = sched ρ t) := by
  induction ps generalizing t with
  | nil =>
    simp only [subAt, Option.some.injEq] at h
    subst h
    exact ⟨a, by simp [appendBranchTree], by simp [subAt], fun ρ _ => ⟨rfl, rfl⟩, fun ρ h => by simp [pathDec] at h⟩
  | cons q ps ih =>
    obtain ⟨p, b⟩ := q
    cases t <;> simp only [subAt, reduceCtorEq] at h
    rename_i c t f
    split at h
    · rename_i e; subst e
      cases b
      · simp only [Bool.false_eq_true, if_false] at h
        obtain ⟨t', h1, h2, h3, h4⟩ := ih h
        refine ⟨.branch p t t', by simp [appendBranchTree, h1, ok_bind], by simp [subAt, h2], ?_, ?_⟩
        · intro ρ hp
          simp only [pathDec] at hp
          rw [sched_branch, sched_branch]
          cases hs : sem ρ p with
          | none => simp [hs] at hp
          | some v =>
            by_cases hv : v.1 = 0
            · simp only [hs, Option.bind_eq_bind, Option.bind_some, hv, ne_eq, not_true_eq_false, decide_false, if_true] at hp
              simp [hv, h3 ρ hp]
            · simp [hs, hv] at hp
        · intro ρ hp
          simp only [pathDec] at hp
          rw [sched_branch, sched_branch]
          cases hs : sem ρ p with
          | none => simp
          | some v =>
            by_cases hv : v.1 = 0
            · simp only [hs, Option.bind_eq_bind, Option.bind_some, hv, ne_eq, not_true_eq_false, decide_false, if_true] at hp
              simp [hv, h4 ρ hp]
            · simp [hv]
      · simp only [if_true] at h
        obtain ⟨t', h1, h2, h3, h4⟩ := ih h
        refine ⟨.branch p t' f, by simp [appendBranchTree, h1, ok_bind], by simp [subAt, h2], ?_, ?_⟩
        · intro ρ hp
          simp only [pathDec] at hp
          rw [sched_branch, sched_branch]
          cases hs : sem ρ p with
          | none => simp [hs] at hp
          | some v =>
            by_cases hv : v.1 = 0
            · simp [hs, hv] at hp
            · simp only [hs, Option.bind_eq_bind, Option.bind_some, hv, ne_eq, not_false_eq_true, decide_true, if_true] at hp
              simp [hv, h3 ρ hp]
        · intro ρ hp
          simp only [pathDec] at hp
          rw [sched_branch, sched_branch]
          cases hs : sem ρ p with
          | none => simp
          | some v =>
            by_cases hv : v.1 = 0
            · simp [hv]
            · simp only [hs, Option.bind_eq_bind, Option.bind_some, hv, ne_eq, not_false_eq_true, decide_true, if_true] at hp
              simp [hv, h4 ρ hp]
    · cases h

theorem makeBranch_sub (ps : CondPath) (n : DF) : subAt (makeBranchTree ps n) ps = some n := by
  induction ps with
  | nil => simp [makeBranchTree, subAt]
  | cons q ps ih => obtain ⟨p, b⟩ := q; cases b <;> simp [makeBranchTree, subAt, ih]

theorem makeBranch_sched_true (ps : CondPath) (n : DF) (ρ : Env) (h : pathDec ρ ps = some true) :
    sched ρ (makeBranchTree ps n) = sched ρ n := by
  obtain ⟨t', -, -, h3, -⟩ := append_sub (makeBranch_sub ps n) n
  exact (h3 ρ h).2

theorem makeBranch_sched_false (ps : CondPath) (n : DF) (ρ : Env) (h : pathDec ρ ps = some false) :
    sched ρ (makeBranchTree ps n) = some none := by
  induction ps with
  | nil => simp [pathDec] at h
  | cons q ps ih =>
    obtain ⟨p, b⟩ := q
    simp only [pathDec] at h
    cases hs : sem ρ p with
    | none => simp [hs] at h
    | some v =>
      by_cases hv : v.1 = 0 <;> cases b <;> simp_all [makeBranchTree, sched]

theorem pathDec_append (ρ : Env) (ps qs : CondPath) :
    pathDec ρ (ps ++ qs) = (do let b ← pathDec ρ ps; if b then pathDec ρ qs else some false) := by
  induction ps with
  | nil => simp [pathDec]
  | cons q ps ih =>
    obtain ⟨p, b⟩ := q
    simp only [List.cons_append, pathDec]
    cases sem ρ p with
    | none => simp
    | some v =>
      simp only [Option.bind_eq_bind, Option.bind_some]
      split
      · rw [ih]; rfl
      · simp

/-- The other side of the last conditional of a path: the rest is the last condition, reversed. -/
theorem makeBranch_flip (ps : CondPath) (c : DF) (b : Bool) (n : DF) :
    subAt (makeBranchTree (ps ++ [(c, b)]) n) (ps ++ [(c, !b)]) = some .none := by
  induction ps with
  | nil => cases b <;> simp [makeBranchTree, subAt]
  | cons q ps ih => obtain ⟨p, d⟩ := q; cases d <;> simp [makeBranchTree, subAt, ih]

theorem flipLast_append (bs : List Bool) (b : Bool) : flipLast (bs ++ [b]) = bs ++ [!b] := by
  induction bs with
  | nil => rfl
  | cons a bs ih => cases bs with
    | nil => rfl
    | cons d ds => simp only [List.cons_append] at ih ⊢; rw [flipLast]; rw [ih]; simp

/-- A path that fails without its last condition failing. -/
theorem append_other {t : DF} {ps : CondPath} {c : DF} {b : Bool} {n r : DF}
    (h : subAt t (ps ++ [(c, b)]) = some n) {a : DF} {t' : DF}
    (ha : appendBranchTree t ((ps ++ [(c, !b)]).map (·.2)) a = .ok t') : subAt t' (ps ++ [(c, b)]) = some n := by
  induction ps generalizing t t' with
  | nil =>
    cases t <;> simp only [List.nil_append, subAt, reduceCtorEq] at h
    split at h
    · rename_i e; subst e
      cases b <;> simp [appendBranchTree, ok_bind] at ha <;> subst ha <;> simpa [subAt] using h
    · cases h
  | cons q ps ih =>
    obtain ⟨p, d⟩ := q
    cases t <;> simp only [List.cons_append, subAt, reduceCtorEq] at h
    split at h
    · rename_i e; subst e
      cases d
      · simp only [List.cons_append, List.map_cons, appendBranchTree, bind_ok] at ha
        obtain ⟨u, hu, he⟩ := ha
        cases he
        simp only [Bool.false_eq_true, if_false] at h
        simpa [subAt] using ih h hu
      · simp only [List.cons_append, List.map_cons, appendBranchTree, bind_ok] at ha
        obtain ⟨u, hu, he⟩ := ha
        cases he
        simp only [if_true] at h
        simpa [subAt] using ih h hu
    · cases h

/-- The tree put at the end of the matched path. -/
theorem addTree_spec (r : DF) (ps : CondPath) (raw : DF) :
    ∃ a, addTree r ps raw = .ok a ∧ subAt a ps = some raw ∧
      (∀ ρ, pathDec ρ ps = some true → sched ρ a = sched ρ raw) ∧
      (∀ ρ, (ps.length ≤ 1 ∨ r = .none) → pathDec ρ ps = some false → sched ρ a = sched ρ r) ∧
      (∀ ρ, pathDec ρ ps.dropLast = some true → pathDec ρ ps = some false → sched ρ a = sched ρ r) ∧
      (∀ ρ, pathDec ρ ps.dropLast = some false → sched ρ a = some none) := by
  by_cases h : ps ≠ [] ∧ r ≠ .none
  · obtain ⟨hp, hr⟩ := h
    obtain ⟨qs, ⟨c, b⟩, rfl⟩ : ∃ qs q, ps = qs ++ [q] := ⟨ps.dropLast, ps.getLast hp, (List.dropLast_append_getLast hp).symm⟩
    have hf := makeBranch_flip qs c b raw
    obtain ⟨a, h1, h2, h3, h4⟩ := append_sub hf r
    have hm : flipLast ((qs ++ [(c, b)]).map (·.2)) = (qs ++ [(c, !b)]).map (·.2) := by
      simp [flipLast_append]
    have hsub : subAt a (qs ++ [(c, b)]) = some raw := append_other (r := r) (makeBranch_sub _ raw) h1
    have hlast : ∀ ρ, pathDec ρ qs = some true → pathDec ρ (qs ++ [(c, b)]) = some false →
        pathDec ρ (qs ++ [(c, !b)]) = some true := by
      intro ρ hq hl
      rw [pathDec_append, hq] at hl ⊢
      simp only [pathDec, Option.bind_eq_bind, Option.bind_some, if_true] at hl ⊢
      cases hs : sem ρ c with
      | none => simp [hs] at hl
      | some v => cases b <;> by_cases hv : v.1 = 0 <;> simp_all
    refine ⟨a, ?_, hsub, ?_, ?_, ?_, ?_⟩
    · rw [addTree, if_pos ⟨hp, hr⟩, hm, h1]
    · intro ρ hρ
      obtain ⟨t', -, -, h5, -⟩ := append_sub hsub raw
      exact (h5 ρ hρ).2
    · intro ρ hc hρ
      rcases hc with hc | hc
      · have : qs = [] := by
          simp only [List.length_append, List.length_cons, List.length_nil] at hc
          exact List.length_eq_zero_iff.mp (by omega)
        subst this
        exact (h3 ρ (hlast ρ rfl hρ)).1
      · exact absurd hc hr
    · intro ρ hq hρ
      rw [List.dropLast_concat] at hq
      exact (h3 ρ (hlast ρ hq hρ)).1
    · intro ρ hq
      rw [List.dropLast_concat] at hq
      have e1 : pathDec ρ (qs ++ [(c, !b)]) = some false := by rw [pathDec_append, hq]; rfl
      have e2 : pathDec ρ (qs ++ [(c, b)]) = some false := by rw [pathDec_append, hq]; rfl
      rw [h4 ρ e1, makeBranch_sched_false _ _ _ e2]
  · refine ⟨makeBranchTree ps raw, by rw [addTree, if_neg h], makeBranch_sub _ _, fun ρ hρ => makeBranch_sched_true _ _ _ hρ, ?_, ?_, ?_⟩
    · intro ρ _ hρ
      have : r = .none := by
        by_contra hr
        have : ps = [] := by by_contra hp; exact h ⟨hp, hr⟩
        subst this
        simp [pathDec] at hρ
      subst this
      rw [makeBranch_sched_false _ _ _ hρ]; rfl
    · intro ρ _ hρ
      have : r = .none := by
        by_contra hr
        have : ps = [] := by by_contra hp; exact h ⟨hp, hr⟩
        subst this
        simp [pathDec] at hρ
      subst this
      rw [makeBranch_sched_false _ _ _ hρ]; rfl
    · intro ρ hq
      have hp : ps ≠ [] := by rintro rfl; simp [pathDec] at hq
      have : pathDec ρ ps = some false := by
        rw [← List.dropLast_append_getLast hp, pathDec_append, hq]; rfl
      rw [makeBranch_sched_false _ _ _ this]

/-- The tree before `reorder`. -/
def preTree (cur : DF) (path : CondPath) (raw : DF) : Py DF := do
  let d := diffBranchTree cur path
  let a ← addTree d.1 d.2.1 raw
  appendBranchTree cur d.2.2 a

theorem bindTree_pre (reo : DF → Py DF) (cur path raw) : bindTree reo cur path raw = (preTree cur path raw >>= reo) := by
  simp only [bindTree, preTree]
  cases addTree (diffBranchTree cur path).1 (diffBranchTree cur path).2.1 raw <;> rfl

/-- What the tree before `reorder` gives, in all cases. -/
theorem preTree_spec (cur : DF) (path : CondPath) (raw : DF) :
    ∃ t, preTree cur path raw = .ok t ∧ subAt t path = some raw ∧
      (∀ ρ, pathDec ρ path = some true → sched ρ t = sched ρ raw) ∧
      (∀ ρ, ((splitAlong cur path).2.length ≤ 1 ∨ subAt cur (splitAlong cur path).1 = some .none) →
        pathDec ρ path = some false → sched ρ t = sched ρ cur) ∧
      (∀ ρ, pathDec ρ path.dropLast = some true → pathDec ρ path = some false → sched ρ t = sched ρ cur) ∧
      (∀ ρ, pathDec ρ (splitAlong cur path).1 = some false → sched ρ t = sched ρ cur) ∧
      (∀ ρ, pathDec ρ (splitAlong cur path).1 = some true → pathDec ρ (splitAlong cur path).2.dropLast = some false →
        sched ρ t = some none) := by
  obtain ⟨r, hr⟩ := subAt_split cur path
  have hsplit := splitAlong_append cur path
  generalize hpre : (splitAlong cur path).1 = pre at *
  generalize hrest : (splitAlong cur path).2 = rest at *
  obtain ⟨a, ha, hsub, h1, h2, h2', h3⟩ := addTree_spec r rest raw
  obtain ⟨t, ht, hs, h4, h5⟩ := append_sub hr a
  have hpt : preTree cur path raw = .ok t := by
    simp only [preTree, diff_split, hpre, hrest, hr, Option.getD_some, ha, ok_bind, ht]
  have sub_app : ∀ (t a : DF) (ps qs : CondPath), subAt t ps = some a → subAt t (ps ++ qs) = subAt a qs := by
    intro t a ps
    induction ps generalizing t with
    | nil => intro qs h; simp only [subAt, Option.some.injEq] at h; simp [h]
    | cons q ps ih =>
      obtain ⟨p, b⟩ := q
      intro qs h
      cases t <;> simp only [subAt, reduceCtorEq] at h
      split at h
      · rename_i e; subst e
        cases b <;> simp at h <;> simp [subAt, ih _ _ h]
      · cases h
  refine ⟨t, hpt, ?_, ?_, ?_, ?_, ?_, ?_⟩
  · rw [← hsplit, sub_app _ _ _ _ hs, hsub]
  · intro ρ hρ
    rw [← hsplit, pathDec_append] at hρ
    cases hp : pathDec ρ pre with
    | none => simp [hp] at hρ
    | some b =>
      cases b
      · simp [hp] at hρ
      · simp [hp] at hρ
        rw [(h4 ρ hp).1, h1 ρ hρ]
  · intro ρ hc hρ
    rw [← hsplit, pathDec_append] at hρ
    cases hp : pathDec ρ pre with
    | none => simp [hp] at hρ
    | some b =>
      cases b
      · exact h5 ρ hp
      · simp [hp] at hρ
        rw [(h4 ρ hp).1, (h4 ρ hp).2]
        exact h2 ρ (hc.imp id (fun e => Option.some.inj (hr.symm.trans e))) hρ
  · intro ρ hd hρ
    by_cases hre : rest = []
    · subst hre
      simp only [List.append_nil] at hsplit
      subst hsplit
      exact h5 ρ hρ
    · have e : path.dropLast = pre ++ rest.dropLast := by
        rw [← hsplit, List.dropLast_append_of_ne_nil hre]
      rw [e, pathDec_append] at hd
      rw [← hsplit, pathDec_append] at hρ
      cases hp : pathDec ρ pre with
      | none => simp [hp] at hρ
      | some b =>
        cases b
        · simp [hp] at hd
        · simp [hp] at hρ hd
          rw [(h4 ρ hp).1, (h4 ρ hp).2]
          exact h2' ρ hd hρ
  · intro ρ hp; exact h5 ρ hp
  · intro ρ hp hq
    rw [(h4 ρ hp).1, h3 ρ hq]

theorem subAt_append {t a : DF} {ps qs : CondPath} (h : subAt t ps = some a) : subAt t (ps ++ qs) = subAt a qs := by
  induction ps generalizing t with
  | nil => simp only [subAt, Option.some.injEq] at h; simp [h]
  | cons q ps ih =>
    obtain ⟨p, b⟩ := q
    cases t <;> simp only [subAt, reduceCtorEq] at h
    split at h
    · rename_i e; subst e
      cases b <;> simp at h <;> simp [subAt, ih h]
    · cases h

/-! ### Reordering -/

theorem sched_of_sem {ρ : Env} {t : DF} {v : Int × Int} (h : sem ρ t = some v) : sched ρ t = some (some v) := by
  induction t using DF.ind with
  | branch c t f _ h2 h3 =>
    rw [sem_branch] at h
    rw [sched_branch]
    cases hc : sem ρ c with
    | none => simp [hc] at h
    | some b =>
      simp only [hc, Option.bind_eq_bind, Option.bind_some] at h ⊢
      split
      · rename_i e; rw [if_pos e] at h; exact h2 h
      · rename_i e; rw [if_neg e] at h; exact h3 h
  | none => simp [sem] at h
  | _ => simp [sched, h]

theorem insertBranch_sched {ρ c t f} : sched ρ (insertBranch c t f) = sched ρ (.branch c t f) := by
  induction c using DF.ind with
  | branch a x y _ h2 h3 =>
    simp only [insertBranch]
    rw [sched_branch, h2, h3, sched_branch, sched_branch, sched_branch, sem_branch]
    cases sem ρ a with
    | none => rfl
    | some b => by_cases hb : b.1 = 0 <;> simp [bind, Option.bind, hb]
  | _ => rfl

/-- Reordering keeps what a tree assigns. -/
theorem reorder_sched {ρ : Env} (ha : ArraysOK ρ) {k t r} (h : reorder k t = .ok r) {v} (hv : sched ρ t = some v) :
    sched ρ r = some v := by
  induction k generalizing t r v with
  | zero => simp [reorder] at h
  | succ k ih =>
    by_cases hb : t.isBranch
    · cases t <;> simp only [DF.isBranch, Bool.false_eq_true] at hb
      rename_i c t f
      simp only [reorder, bind_ok, ok_inj] at h
      obtain ⟨t', ht, f', hf, c', hc, rfl⟩ := h
      rw [sched_branch] at hv
      cases hs : sem ρ c with
      | none => simp [hs] at hv
      | some b =>
        have hc' := C14_reorder_value ρ ha k c c' hc b hs
        simp only [hs, Option.bind_eq_bind, Option.bind_some] at hv
        have key : sched ρ (.branch c' t' f') = some v := by
          rw [sched_branch, hc']
          simp only [Option.bind_eq_bind, Option.bind_some]
          split
          · rename_i e; rw [if_pos e] at hv; exact ih ht hv
          · rename_i e; rw [if_neg e] at hv; exact ih hf hv
        split
        · rw [insertBranch_sched]; exact key
        · exact key
    · by_cases hn : t = .none
      · subst hn; simp [reorder] at h; subst h; exact hv
      · rw [sched_leaf hn (by simpa using hb)] at hv
        cases hs : sem ρ t with
        | none => simp [hs] at hv
        | some x =>
          simp only [hs, Option.map_some, Option.some.injEq] at hv
          subst hv
          exact sched_of_sem (C14_reorder_value ρ ha _ t r h x hs)

/-! ### C56 -/

/-- The tree follows the path except possibly for its last condition, or assigns nothing where it leaves the path. -/
def CanAdd (cur : DF) (path : CondPath) : Prop :=
  (∃ r, subAt cur path.dropLast = some r) ∨ subAt cur (splitAlong cur path).1 = some .none

theorem split_of_sub {t r : DF} {ps qs : CondPath} (h : subAt t ps = some r) :
    (splitAlong t (ps ++ qs)).2.length ≤ qs.length := by
  induction ps generalizing t with
  | nil =>
    have := congrArg List.length (splitAlong_append t qs)
    simp only [List.length_append] at this
    simp only [List.nil_append]
    omega
  | cons q ps ih =>
    obtain ⟨p, b⟩ := q
    cases t <;> simp only [subAt, reduceCtorEq] at h
    split at h
    · rename_i e; subst e
      cases b <;> simp at h <;> simp [splitAlong, ih h]
    · cases h

theorem canAdd_iff {cur path} (h : CanAdd cur path) :
    (splitAlong cur path).2.length ≤ 1 ∨ subAt cur (splitAlong cur path).1 = some .none := by
  rcases h with ⟨r, h⟩ | h
  · left
    by_cases hp : path = []
    · subst hp; simp [splitAlong]
    · have := split_of_sub (qs := [path.getLast hp]) h
      rw [List.dropLast_append_getLast] at this
      simpa using this
  · exact .inr h

/-- **C56** (partial) Assigning a value under a path of conditions gives a tree that assigns this value where all the
conditions hold, and what the tree assigned before where one of them fails, provided the tree already follows the path
except possibly for its last condition, or assigned nothing at the point where it leaves the path.
Missing: the other trees; there the claim is false, see `C56_lost` and `C56_false`. -/
theorem C56_assign_under_conditions_partial (ρ : Env) (ha : ArraysOK ρ) (k : Nat) (cur : DF) (path : CondPath) (raw t : DF)
    (h : bindTree (reorder k) cur path raw = .ok t) (hc : CanAdd cur path) :
    (pathDec ρ path = some true → ∀ v, sched ρ raw = some v → sched ρ t = some v) ∧
    (pathDec ρ path = some false → ∀ v, sched ρ cur = some v → sched ρ t = some v) := by
  obtain ⟨p, hp, -, h1, h2, -⟩ := preTree_spec cur path raw
  rw [bindTree_pre, hp, ok_bind] at h
  exact ⟨fun hd v hv => reorder_sched ha h (by rw [h1 ρ hd, hv]),
    fun hd v hv => reorder_sched ha h (by rw [h2 ρ (canAdd_iff hc) hd, hv])⟩

/-- **C56** Whatever the tree was, the new one assigns the value where all the conditions hold, and it is unchanged where
only the last condition fails. -/
theorem C56_assign_last (ρ : Env) (ha : ArraysOK ρ) (k : Nat) (cur : DF) (path : CondPath) (raw t : DF)
    (h : bindTree (reorder k) cur path raw = .ok t) :
    (pathDec ρ path = some true → ∀ v, sched ρ raw = some v → sched ρ t = some v) ∧
    (pathDec ρ path.dropLast = some true → pathDec ρ path = some false →
      ∀ v, sched ρ cur = some v → sched ρ t = some v) := by
  obtain ⟨p, hp, -, h1, -, h2, -⟩ := preTree_spec cur path raw
  rw [bindTree_pre, hp, ok_bind] at h
  exact ⟨fun hd v hv => reorder_sched ha h (by rw [h1 ρ hd, hv]),
    fun hq hd v hv => reorder_sched ha h (by rw [h2 ρ hq hd, hv])⟩

/-- **C56** The rest of the truth: when two or more conditions at the end of the path are not followed by the tree, the
earlier assignment is lost wherever the followed conditions hold and one of the others but the last fails: nothing is
assigned there. -/
theorem C56_lost (ρ : Env) (ha : ArraysOK ρ) (k : Nat) (cur : DF) (path : CondPath) (raw t : DF)
    (h : bindTree (reorder k) cur path raw = .ok t) (hp : pathDec ρ (splitAlong cur path).1 = some true)
    (hq : pathDec ρ (splitAlong cur path).2.dropLast = some false) : sched ρ t = some none := by
  obtain ⟨p, hpt, -, -, -, -, -, h2⟩ := preTree_spec cur path raw
  rw [bindTree_pre, hpt, ok_bind] at h
  exact reorder_sched ha h (h2 ρ hp hq)

/-- The tree is built in every case: only reordering can fail. -/
theorem C56_total (cur : DF) (path : CondPath) (raw : DF) :
    ∃ p, ∀ reo, bindTree reo cur path raw = reo p := by
  obtain ⟨p, hp, -⟩ := preTree_spec cur path raw
  exact ⟨p, fun reo => by rw [bindTree_pre, hp, ok_bind]⟩

/-! Signals `a`, `b`, `x`; `a = 0`, the others 1. -/
def c56env : Env := ⟨fun n => if n = [⟨['a'], .signal, none⟩] then some (0, 1) else some (1, 1), fun _ => none, 32⟩

/-- **C56** is false in general: `x <= 0`, then `x <= 1` under `a` and `b` assigns nothing when `a` is false. -/
theorem C56_false : ∃ t, bindTree (reorder 9) (.intc ['0']) [(c14n 'a', true), (c14n 'b', true)] (.intc ['1']) = .ok t ∧
    sched c56env (.intc ['0']) = some (some (0, 32)) ∧
    pathDec c56env [(c14n 'a', true), (c14n 'b', true)] = some false ∧ sched c56env t = some none :=
  ⟨.branch (c14n 'a') (.branch (c14n 'b') (.intc ['1']) (.intc ['0'])) .none, by decide, by decide, by decide, by decide⟩

/-- Non-vacuity: `a ? 5 : 0`, then 7 under `!a` and `b`. -/
example : ∃ t, bindTree (reorder 9) (.branch (c14n 'a') (.intc ['5']) (.intc ['0'])) [(c14n 'a', false), (c14n 'b', true)]
      (.intc ['7']) = .ok t ∧
    CanAdd (.branch (c14n 'a') (.intc ['5']) (.intc ['0'])) [(c14n 'a', false), (c14n 'b', true)] ∧
    pathDec c56env [(c14n 'a', false), (c14n 'b', true)] = some true ∧ sched c56env t = some (some (7, 32)) :=
  ⟨.branch (c14n 'a') (.intc ['5']) (.branch (c14n 'b') (.intc ['7']) (.intc ['0'])), by decide,
    .inl ⟨.intc ['0'], by decide⟩, by decide, by decide⟩

end Pyv
