import Verif.Reorder
import Verif.Props.CondProps
/-
  C14, C15, C16: reorder (reorder.py).
-/
namespace Pyv

/-! ### C15 -/

mutual
/-- No conditional in the tree, delay nodes aside. -/
def CondFree : DF → Prop
  | .branch .. => False
  | .op _ ns => CondFreeL ns
  | .concat ns => CondFreeL ns
  | .sys _ ns => CondFreeL ns
  | .psel v m l => CondFree v ∧ CondFree m ∧ CondFree l
  | .ptr v p => CondFree v ∧ CondFree p
  | _ => True
/-- No conditional in a list of trees. -/
def CondFreeL : List DF → Prop
  | [] => True
  | n :: ns => CondFree n ∧ CondFreeL ns
end

/-- Conditionals occur only at the top: their conditions and everything below another node are conditional-free. -/
def OnTop : DF → Prop
  | .branch c t f => CondFree c ∧ OnTop t ∧ OnTop f
  | t => CondFree t

mutual
/-- The normal form of `reorder`: `top` tells whether conditionals are allowed here. -/
def nf (top : Bool) : DF → Prop
  | .branch c t f => top = true ∧ nf false c ∧ nf true t ∧ nf true f
  | .op _ ns => nfL ns ∧ DF.none ∉ ns
  | .concat ns => nfL ns
  | .sys _ _ => False
  | .psel v m l => nf false v ∧ nf false m ∧ nf false l
  | .ptr v p => nf false v ∧ nf false p
  | .delay n => nf true n
  | _ => True
/-- All operands are in normal form. -/
def nfL : List DF → Prop
  | [] => True
  | n :: ns => nf false n ∧ nfL ns
end

theorem nfL_iff {ns} : nfL ns ↔ ∀ n ∈ ns, nf false n := by
  induction ns with
  | nil => simp [nfL]
  | cons a ns ih => simp [nfL, ih]

theorem condFreeL_iff {ns} : CondFreeL ns ↔ ∀ n ∈ ns, CondFree n := by
  induction ns with
  | nil => simp [CondFreeL]
  | cons a ns ih => simp [CondFreeL, ih]

theorem nf_false_of_not_branch {t} (h : nf true t) (hb : t.isBranch = false) : nf false t := by
  cases t <;> simp_all [nf, DF.isBranch]

theorem nf_false_not_branch {t} (h : nf false t) : t.isBranch = false := by
  cases t <;> simp_all [nf, DF.isBranch]

theorem nf_true_of_false {t} (h : nf false t) : nf true t := by
  cases t <;> simp_all [nf]

theorem nf_condFree {t} (h : nf false t) : CondFree t := by
  induction t using DF.ind with
  | op o ns ih | concat ns ih =>
    simp only [nf, nfL_iff] at h
    simp only [CondFree, condFreeL_iff]
    first | exact fun n hn => ih n hn (h.1 n hn) | exact fun n hn => ih n hn (h n hn)
  | psel v m l h1 h2 h3 => simp only [nf] at h; exact ⟨h1 h.1, h2 h.2.1, h3 h.2.2⟩
  | ptr v p h1 h2 => simp only [nf] at h; exact ⟨h1 h.1, h2 h.2⟩
  | branch c t f => simp [nf] at h
  | sys s ns => simp [nf] at h
  | _ => simp [CondFree]

theorem nf_onTop {t} (h : nf true t) : OnTop t := by
  induction t using DF.ind with
  | branch c t f h1 h2 h3 => simp only [nf] at h; exact ⟨nf_condFree h.2.1, h2 h.2.2.1, h3 h.2.2.2⟩
  | _ => exact nf_condFree (nf_false_of_not_branch h rfl)

theorem insertBranch_nf {c t f} (hc : nf true c) (ht : nf true t) (hf : nf true f) : nf true (insertBranch c t f) := by
  induction c using DF.ind with
  | branch a x y h1 h2 h3 => simp only [nf] at hc; simp only [insertBranch, nf]; exact ⟨trivial, hc.2.1, h2 hc.2.2.1, h3 hc.2.2.2⟩
  | _ => exact ⟨rfl, nf_false_of_not_branch hc rfl, ht, hf⟩

theorem hoistNode_nf {k : DF → Py DF} (hk : ∀ n r, nf false n → k n = .ok r → nf true r) {n r} (hn : nf true n)
    (h : hoistNode k n = .ok r) : nf true r := by
  induction n using DF.ind generalizing r with
  | branch a x y h1 h2 h3 =>
    simp only [hoistNode, bind_ok, ok_inj] at h
    obtain ⟨a, ha, b, hb, rfl⟩ := h
    simp only [nf] at hn
    exact ⟨rfl, hn.2.1, h2 hn.2.2.1 ha, h3 hn.2.2.2 hb⟩
  | _ => exact hk _ _ (nf_false_of_not_branch hn rfl) h

theorem hoistList_nf {k : List DF → Py DF} (hk : ∀ ns r, nfL ns → k ns = .ok r → nf true r) {done ns r}
    (hd : nfL done) (hn : ∀ n ∈ ns, nf true n) (h : hoistList k done ns = .ok r) : nf true r := by
  induction ns generalizing done r with
  | nil => exact hk _ _ hd h
  | cons n ns ih =>
    refine hoistNode_nf (fun m r' hm h' => ih ?_ (fun x hx => hn x (by simp [hx])) h') (hn n (by simp)) h
    rw [nfL_iff] at hd ⊢
    intro x hx
    rcases List.mem_append.mp hx with hx | hx
    · exact hd x hx
    · simp at hx; subst hx; exact hm

theorem mkOp_nf {o ns r} (hns : nfL ns) (h : DF.mkOp o ns = .ok r) : nf true r := by
  obtain ⟨rfl, hn⟩ := DF.mkOp_ok h
  exact ⟨hns, hn⟩

theorem reorder_nf {k t r} (h : reorder k t = .ok r) : nf true r := by
  induction k generalizing t r with
  | zero => simp [reorder] at h
  | succ k ih =>
    have ihL : ∀ {ns rs}, List.mapM (reorder k) ns = .ok rs → ∀ n ∈ rs, nf true n := by
      intro ns rs hm
      rw [mapM_ok] at hm
      induction hm with
      | nil => simp
      | cons a _ ih2 =>
        intro n hn
        rcases List.mem_cons.mp hn with rfl | hn
        · exact ih a
        · exact ih2 n hn
    have flatL : ∀ {rs : List DF}, (∀ n ∈ rs, nf true n) → rs.any DF.isBranch = false → nfL rs := by
      intro rs h1 h2
      rw [nfL_iff]
      intro n hn
      exact nf_false_of_not_branch (h1 n hn) (by simpa using List.any_eq_false.mp h2 n hn)
    cases t with
    | branch c a b =>
      simp only [reorder, bind_ok, ok_inj] at h
      obtain ⟨t', ht, f', hf, c', hc, rfl⟩ := h
      split
      · exact insertBranch_nf (ih hc) (ih ht) (ih hf)
      · rename_i hb
        exact ⟨rfl, nf_false_of_not_branch (ih hc) (by simpa using hb), ih ht, ih hf⟩
    | op o ns =>
      simp only [reorder, bind_ok] at h
      obtain ⟨rs, hrs, h⟩ := h
      split at h
      · exact hoistList_nf (fun ns r hns h => mkOp_nf hns h) (by simp [nfL]) (ihL hrs) h
      · rename_i hb
        exact mkOp_nf (flatL (ihL hrs) (by simpa using hb)) h
    | concat ns =>
      simp only [reorder, bind_ok] at h
      obtain ⟨rs, hrs, h⟩ := h
      split at h
      · exact hoistList_nf (fun ns r hns h => by simp at h; subst h; exact hns) (by simp [nfL]) (ihL hrs) h
      · rename_i hb
        simp at h; subst h
        exact flatL (ihL hrs) (by simpa using hb)
    | psel v m l =>
      simp only [reorder, bind_ok] at h
      obtain ⟨m', hm, l', hl, v', hv, h⟩ := h
      split at h
      · simp at h
      · rename_i hml
        simp only [Bool.or_eq_true, not_or, Bool.not_eq_true] at hml
        have nm := nf_false_of_not_branch (ih hm) hml.1
        have nl := nf_false_of_not_branch (ih hl) hml.2
        split at h
        · refine hoistNode_nf (fun n r hn h => ?_) (ih hv) h
          split at h
          · simp at h; subst h; trivial
          · simp at h; subst h; exact ⟨hn, nm, nl⟩
        · rename_i hb
          simp at h; subst h
          exact ⟨nf_false_of_not_branch (ih hv) (by simpa using hb), nm, nl⟩
    | ptr v p =>
      simp only [reorder, bind_ok] at h
      obtain ⟨p', hp, v', hv, h⟩ := h
      split at h
      · rename_i c pt pf
        simp only [bind_ok, ok_inj] at h
        obtain ⟨a, ha, b, hb, rfl⟩ := h
        have := ih hp
        simp only [nf] at this
        exact ⟨rfl, this.2.1, ih ha, ih hb⟩
      · rename_i hnb
        have np := nf_false_of_not_branch (ih hp) (by cases p' <;> simp_all [DF.isBranch])
        split at h
        · refine hoistNode_nf (fun n r hn h => ?_) (ih hv) h
          split at h
          · simp at h; subst h; trivial
          · simp at h; subst h; exact ⟨hn, np⟩
        · rename_i hb
          simp at h; subst h
          exact ⟨nf_false_of_not_branch (ih hv) (by simpa using hb), np⟩
    | delay n =>
      simp only [reorder, bind_ok, ok_inj] at h
      obtain ⟨n', hn, rfl⟩ := h
      simp only [nf]
      exact ih hn
    | sys s ns => simp [reorder] at h
    | _ => simp [reorder] at h; subst h; trivial

/-- **C15** In the result of `reorder` conditionals occur only at the top (delay nodes aside). -/
theorem C15_conditionals_on_top (k : Nat) (t r : DF) (h : reorder k t = .ok r) : OnTop r := nf_onTop (reorder_nf h)

/-! ### C16 -/

theorem mapM_id {α : Type} {f : α → Py α} {ns : List α} (h : ∀ n ∈ ns, f n = .ok n) : ns.mapM f = .ok ns := by
  rw [mapM_ok]
  induction ns with
  | nil => exact .nil
  | cons n ns ih => exact .cons (h n (by simp)) (ih (fun m hm => h m (by simp [hm])))

/-- A bound for a list from bounds for its members. -/
theorem common_bound {α : Type} {Q : α → Nat → Prop} {ns : List α} (h : ∀ n ∈ ns, ∃ N, ∀ k ≥ N, Q n k) :
    ∃ N, ∀ k ≥ N, ∀ n ∈ ns, Q n k := by
  induction ns with
  | nil => exact ⟨0, by simp⟩
  | cons n ns ih =>
    obtain ⟨N1, h1⟩ := h n (by simp)
    obtain ⟨N2, h2⟩ := ih (fun m hm => h m (by simp [hm]))
    refine ⟨max N1 N2, fun k hk m hm => ?_⟩
    rcases List.mem_cons.mp hm with rfl | hm
    · exact h1 k (le_trans (le_max_left _ _) hk)
    · exact h2 k (le_trans (le_max_right _ _) hk) m hm

theorem nfL_any {ns} (h : nfL ns) : ns.any DF.isBranch = false := by
  rw [List.any_eq_false]
  intro n hn
  simp [nf_false_not_branch (nfL_iff.mp h n hn)]

/-- Normal forms are fixed points. -/
theorem reorder_fix {t} (h : nf true t) : ∃ N, ∀ k ≥ N, reorder k t = .ok t := by
  have key : ∀ t, nf true t → ∃ N, ∀ k ≥ N, reorder (k + 1) t = .ok t := by
    intro t
    induction t using DF.ind with
    | branch c t f h1 h2 h3 =>
      intro h
      simp only [nf] at h
      obtain ⟨N1, g1⟩ := h1 (nf_true_of_false h.2.1)
      obtain ⟨N2, g2⟩ := h2 h.2.2.1
      obtain ⟨N3, g3⟩ := h3 h.2.2.2
      refine ⟨N1 + N2 + N3 + 1, fun k hk => ?_⟩
      obtain ⟨j, rfl⟩ : ∃ j, k = j + 1 := ⟨k - 1, by omega⟩
      rw [reorder]
      simp only [g1 j (by omega), g2 j (by omega), g3 j (by omega), bind, Except.bind, nf_false_not_branch h.2.1]
      simp
    | op o ns ih =>
      intro h
      simp only [nf] at h
      obtain ⟨N, g⟩ := common_bound (fun n hn => ih n hn (nf_true_of_false (nfL_iff.mp h.1 n hn)))
      refine ⟨N + 1, fun k hk => ?_⟩
      obtain ⟨j, rfl⟩ : ∃ j, k = j + 1 := ⟨k - 1, by omega⟩
      rw [reorder]
      simp only [mapM_id (g j (by omega)), bind, Except.bind, nfL_any h.1, DF.mkOp, h.2]
      simp
    | concat ns ih =>
      intro h
      simp only [nf] at h
      obtain ⟨N, g⟩ := common_bound (fun n hn => ih n hn (nf_true_of_false (nfL_iff.mp h n hn)))
      refine ⟨N + 1, fun k hk => ?_⟩
      obtain ⟨j, rfl⟩ : ∃ j, k = j + 1 := ⟨k - 1, by omega⟩
      rw [reorder]
      simp only [mapM_id (g j (by omega)), bind, Except.bind, nfL_any h]
      simp
    | psel v m l h1 h2 h3 =>
      intro h
      simp only [nf] at h
      obtain ⟨N1, g1⟩ := h1 (nf_true_of_false h.1)
      obtain ⟨N2, g2⟩ := h2 (nf_true_of_false h.2.1)
      obtain ⟨N3, g3⟩ := h3 (nf_true_of_false h.2.2)
      refine ⟨N1 + N2 + N3 + 1, fun k hk => ?_⟩
      obtain ⟨j, rfl⟩ : ∃ j, k = j + 1 := ⟨k - 1, by omega⟩
      rw [reorder]
      simp only [g1 j (by omega), g2 j (by omega), g3 j (by omega), bind, Except.bind, nf_false_not_branch h.1,
        nf_false_not_branch h.2.1, nf_false_not_branch h.2.2]
      simp
    | ptr v p h1 h2 =>
      intro h
      simp only [nf] at h
      obtain ⟨N1, g1⟩ := h1 (nf_true_of_false h.1)
      obtain ⟨N2, g2⟩ := h2 (nf_true_of_false h.2)
      refine ⟨N1 + N2 + 1, fun k hk => ?_⟩
      obtain ⟨j, rfl⟩ : ∃ j, k = j + 1 := ⟨k - 1, by omega⟩
      rw [reorder]
      have hb := nf_false_not_branch h.2
      simp only [g1 j (by omega), g2 j (by omega), bind, Except.bind, nf_false_not_branch h.1]
      cases p <;> simp_all [DF.isBranch]
    | delay n ih =>
      intro h
      obtain ⟨N, g⟩ := ih h
      refine ⟨N + 1, fun k hk => ?_⟩
      obtain ⟨j, rfl⟩ : ∃ j, k = j + 1 := ⟨k - 1, by omega⟩
      rw [reorder]
      simp only [g j (by omega), bind, Except.bind]
    | sys s ns => intro h; simp [nf] at h
    | _ => intro _; exact ⟨0, fun k _ => by simp [reorder]⟩
  obtain ⟨N, g⟩ := key t h
  exact ⟨N + 1, fun k hk => by obtain ⟨j, rfl⟩ : ∃ j, k = j + 1 := ⟨k - 1, by omega⟩; exact g j (by omega)⟩

/-- **C15** (consequence) `reorder` is idempotent. -/
theorem C15_idempotent (k : Nat) (t r : DF) (h : reorder k t = .ok r) : ∃ N, ∀ j ≥ N, reorder j r = .ok r :=
  reorder_fix (reorder_nf h)

/-- The computation neither returns nor raises another exception only when it runs out of fuel. -/
def Ends (x : Py DF) : Prop := x ≠ .error .recursion

theorem hoistNode_ends {k : DF → Py DF} (hk : ∀ n, Ends (k n)) (n : DF) : Ends (hoistNode k n) := by
  induction n using DF.ind with
  | branch c t f h1 h2 h3 =>
    simp only [hoistNode, Ends]
    cases e1 : hoistNode k t with
    | error x => intro h; apply h2; rw [e1]; simpa [bind, Except.bind] using h
    | ok a =>
      cases e2 : hoistNode k f with
      | error x => intro h; apply h3; rw [e2]; simpa [bind, Except.bind] using h
      | ok b => simp [bind, Except.bind]
  | _ => exact hk _

theorem hoistList_ends {k : List DF → Py DF} (hk : ∀ n, Ends (k n)) (done ns : List DF) : Ends (hoistList k done ns) := by
  induction ns generalizing done with
  | nil => exact hk _
  | cons n ns ih => exact hoistNode_ends (fun m => ih _) n

theorem mkOp_ends {o ns} : Ends (DF.mkOp o ns) := by
  unfold DF.mkOp Ends; split <;> simp

theorem insertPointer_ends {v p} : Ends (insertPointer v p) :=
  hoistNode_ends (fun n => by split <;> simp [Ends]) v

theorem insertPartselect_ends {v m l} : Ends (insertPartselect v m l) :=
  hoistNode_ends (fun n => by split <;> simp [Ends]) v

/-- `reorder` of `t` has reached its result `x`. -/
def Stable (t : DF) (x : Py DF) : Prop := Ends x ∧ ∃ N, ∀ k ≥ N, reorder k t = x

theorem stable_ptr_leaf {v p N1} (g1 : ∀ k ≥ N1, reorder k v = .ok v) (hp : nf true p) (hb : p.isBranch = false) :
    ∃ x, Stable (.ptr v p) x := by
  obtain ⟨N2, g2⟩ := reorder_fix hp
  refine ⟨if v.isBranch then insertPointer v p else .ok (.ptr v p), ?_, N1 + N2 + 1, fun k hk => ?_⟩
  · split
    · exact insertPointer_ends
    · simp [Ends]
  · obtain ⟨j, rfl⟩ : ∃ j, k = j + 1 := ⟨k - 1, by omega⟩
    rw [reorder]
    simp only [g1 j (by omega), g2 j (by omega), bind, Except.bind]
    cases p <;> simp_all [DF.isBranch]

theorem stable_ptr_nf {v p} (hv : nf true v) (hp : nf true p) : ∃ x, Stable (.ptr v p) x := by
  obtain ⟨N1, g1⟩ := reorder_fix hv
  induction p using DF.ind with
  | branch c a b _ h2 h3 =>
    obtain ⟨N2, g2⟩ := reorder_fix hp
    simp only [nf] at hp
    obtain ⟨x, hx, N3, g3⟩ := h2 hp.2.2.1
    obtain ⟨y, hy, N4, g4⟩ := h3 hp.2.2.2
    refine ⟨(do let a ← x; let b ← y; .ok (.branch c a b)), ?_, N1 + N2 + N3 + N4 + 1, fun k hk => ?_⟩
    · cases x with
      | error e => simpa [Ends, bind, Except.bind] using hx
      | ok x =>
        cases y with
        | error e => simpa [Ends, bind, Except.bind] using hy
        | ok y => simp [Ends, bind, Except.bind]
    · obtain ⟨j, rfl⟩ : ∃ j, k = j + 1 := ⟨k - 1, by omega⟩
      rw [reorder]
      simp only [g1 j (by omega), g2 j (by omega), g3 j (by omega), g4 j (by omega), bind, Except.bind]
  | _ => exact stable_ptr_leaf g1 hp rfl

/-- The result of mapping is stable when every element is. -/
theorem stable_mapM {ns : List DF} (h : ∀ n ∈ ns, ∃ x, Stable n x) :
    ∃ x : Py (List DF), x ≠ .error .recursion ∧ ∃ N, ∀ k ≥ N, List.mapM (reorder k) ns = x := by
  induction ns with
  | nil => exact ⟨.ok [], by simp, 0, fun k _ => rfl⟩
  | cons n ns ih =>
    obtain ⟨x, hx, N1, g1⟩ := h n (by simp)
    obtain ⟨y, hy, N2, g2⟩ := ih (fun m hm => h m (by simp [hm]))
    refine ⟨(do let a ← x; let b ← y; .ok (a :: b)), ?_, N1 + N2, fun k hk => ?_⟩
    · cases x with
      | error e => simpa [Ends, bind, Except.bind] using hx
      | ok x =>
        cases y with
        | error e => simpa [Ends, bind, Except.bind] using hy
        | ok y => simp [bind, Except.bind]
    · rw [List.mapM_cons, g1 k (by omega), g2 k (by omega)]
      cases x <;> cases y <;> rfl

theorem stable_of {t : DF} {x : Py DF} (N : Nat) (g : ∀ j ≥ N, reorder (j + 1) t = x) (h : Ends x) : ∃ x, Stable t x :=
  ⟨x, h, N + 1, fun k hk => by obtain ⟨j, rfl⟩ : ∃ j, k = j + 1 := ⟨k - 1, by omega⟩; exact g j (by omega)⟩

theorem stable_all (t : DF) : ∃ x, Stable t x := by
  induction t using DF.ind with
  | branch c a b h1 h2 h3 =>
    obtain ⟨x, hx, N1, g1⟩ := h1
    obtain ⟨y, hy, N2, g2⟩ := h2
    obtain ⟨z, hz, N3, g3⟩ := h3
    refine stable_of (N1 + N2 + N3) (fun j hj => by rw [reorder]; simp only [g1 j (by omega), g2 j (by omega), g3 j (by omega)]; rfl) ?_
    · cases y with
      | error e => simpa [Ends, bind, Except.bind] using hy
      | ok y =>
        cases z with
        | error e => simpa [Ends, bind, Except.bind] using hz
        | ok z =>
          cases x with
          | error e => simpa [Ends, bind, Except.bind] using hx
          | ok x => simp [Ends, bind, Except.bind]
  | op o ns ih =>
    obtain ⟨x, hx, N, g⟩ := stable_mapM ih
    refine stable_of (N) (fun j hj => by rw [reorder]; simp only [g j (by omega)]; rfl) ?_
    · cases x with
      | error e => simpa [Ends, bind, Except.bind] using hx
      | ok x =>
        simp only [bind, Except.bind]
        split
        · exact hoistList_ends (fun _ => mkOp_ends) _ _
        · exact mkOp_ends
  | concat ns ih =>
    obtain ⟨x, hx, N, g⟩ := stable_mapM ih
    refine stable_of (N) (fun j hj => by rw [reorder]; simp only [g j (by omega)]; rfl) ?_
    · cases x with
      | error e => simpa [Ends, bind, Except.bind] using hx
      | ok x =>
        simp only [bind, Except.bind]
        split
        · exact hoistList_ends (fun _ => by simp [Ends]) _ _
        · simp [Ends]
  | psel v m l h1 h2 h3 =>
    obtain ⟨x, hx, N1, g1⟩ := h1
    obtain ⟨y, hy, N2, g2⟩ := h2
    obtain ⟨z, hz, N3, g3⟩ := h3
    refine stable_of (N1 + N2 + N3) (fun j hj => by rw [reorder]; simp only [g1 j (by omega), g2 j (by omega), g3 j (by omega)]; rfl) ?_
    · cases y with
      | error e => simpa [Ends, bind, Except.bind] using hy
      | ok y =>
        cases z with
        | error e => simpa [Ends, bind, Except.bind] using hz
        | ok z =>
          cases x with
          | error e => simpa [Ends, bind, Except.bind] using hx
          | ok x =>
            simp only [bind, Except.bind]
            split
            · simp [Ends]
            · split
              · exact insertPartselect_ends
              · simp [Ends]
  | ptr v p h1 h2 =>
    obtain ⟨x, hx, N1, g1⟩ := h1
    obtain ⟨y, hy, N2, g2⟩ := h2
    cases y with
    | error e =>
      refine ⟨.error e, hy, N2 + 1, fun k hk => ?_⟩
      obtain ⟨j, rfl⟩ : ∃ j, k = j + 1 := ⟨k - 1, by omega⟩
      rw [reorder]
      simp only [g2 j (by omega), bind, Except.bind]
    | ok p' =>
      cases x with
      | error e =>
        refine ⟨.error e, hx, N1 + N2 + 1, fun k hk => ?_⟩
        obtain ⟨j, rfl⟩ : ∃ j, k = j + 1 := ⟨k - 1, by omega⟩
        rw [reorder]
        simp only [g1 j (by omega), g2 j (by omega), bind, Except.bind]
      | ok v' =>
        have nv := reorder_nf (g1 N1 le_rfl)
        have np := reorder_nf (g2 N2 le_rfl)
        obtain ⟨z, hz, N3, g3⟩ := stable_ptr_nf nv np
        -- one step of `ptr v p` equals one step of `ptr v' p'`
        obtain ⟨N4, g4⟩ := reorder_fix nv
        obtain ⟨N5, g5⟩ := reorder_fix np
        refine ⟨z, hz, N1 + N2 + N3 + N4 + N5 + 1, fun k hk => ?_⟩
        rw [← g3 k (by omega)]
        obtain ⟨j, rfl⟩ : ∃ j, k = j + 1 := ⟨k - 1, by omega⟩
        rw [reorder, reorder]
        simp only [g1 j (by omega), g2 j (by omega), g4 j (by omega), g5 j (by omega), bind, Except.bind]
  | delay n ih =>
    obtain ⟨x, hx, N1, g1⟩ := ih
    refine stable_of (N1) (fun j hj => by rw [reorder]; simp only [g1 j (by omega)]; rfl) ?_
    · cases x with
      | error e => simpa [Ends, bind, Except.bind] using hx
      | ok x => simp [Ends, bind, Except.bind]
  | sys s ns =>
    refine ⟨.error .name, by simp [Ends], 1, fun k hk => ?_⟩
    obtain ⟨j, rfl⟩ : ∃ j, k = j + 1 := ⟨k - 1, by omega⟩
    simp [reorder]
  | _ => exact stable_of 0 (fun j hj => by rw [reorder] <;> simp) (by simp [Ends])

/-- **C16** `reorder` terminates on every tree: with enough recursion depth it returns a tree or raises an
exception other than RecursionError, and more depth does not change the outcome. -/
theorem C16_reorder_terminates (t : DF) :
    ∃ x, x ≠ .error .recursion ∧ ∃ N, ∀ k ≥ N, reorder k t = x := stable_all t

/-! ### C14 -/

/-- Arrays have no value of their own (only their elements do). -/
def ArraysOK (ρ : Env) : Prop := ∀ n f, ρ.arr n = some f → ρ.sig n = none

/-- `y` is at least as defined as `x`; with `b`, equal to it. -/
def Rf {α : Type} (b : Bool) (x y : Option α) : Prop := (∀ v, x = some v → y = some v) ∧ (b = true → x = y)

theorem Rf.refl {α : Type} {b} (x : Option α) : Rf b x x := ⟨fun _ h => h, fun _ => rfl⟩
theorem Rf.of_eq {α : Type} {b} {x y : Option α} (h : x = y) : Rf b x y := h ▸ Rf.refl x
theorem Rf.trans {α : Type} {b} {x y z : Option α} (h1 : Rf b x y) (h2 : Rf b y z) : Rf b x z :=
  ⟨fun v h => h2.1 v (h1.1 v h), fun h => (h1.2 h).trans (h2.2 h)⟩
theorem Rf.bind {α β : Type} {b} {x y : Option α} {f g : α → Option β} (h : Rf b x y) (hf : ∀ v, Rf b (f v) (g v)) :
    Rf b (x >>= f) (y >>= g) := by
  constructor
  · intro v hv
    rw [obind_some] at hv ⊢
    obtain ⟨a, ha, hb⟩ := hv
    exact ⟨a, h.1 a ha, (hf a).1 v hb⟩
  · intro hb
    rw [h.2 hb]
    congr 1
    funext v
    exact (hf v).2 hb

theorem semList_append {ρ as bs} : semList ρ (as ++ bs) = (do let x ← semList ρ as; let y ← semList ρ bs; some (x ++ y)) := by
  induction as with
  | nil => cases h : semList ρ bs <;> simp [semList, h]
  | cons a as ih =>
    simp only [List.cons_append, semList, ih]
    cases sem ρ a <;> simp [bind, Option.bind]
    cases semList ρ as <;> simp [bind, Option.bind]
    cases semList ρ bs <;> simp [bind, Option.bind]

theorem sem_branch {ρ c t f} : sem ρ (.branch c t f) = (do let b ← sem ρ c; if b.1 ≠ 0 then sem ρ t else sem ρ f) := by
  simp [sem]

/-- A list context distributes over a conditional operand. -/
theorem semList_branch {ρ done c t f rest} {F : List (Int × Int) → Option (Int × Int)} :
    (do let xs ← semList ρ (done ++ .branch c t f :: rest); F xs) =
    (do let b ← sem ρ c; if b.1 ≠ 0 then (do let xs ← semList ρ (done ++ t :: rest); F xs)
        else (do let xs ← semList ρ (done ++ f :: rest); F xs)) := by
  simp only [semList_append, semList, sem_branch]
  cases hc : sem ρ c with
  | none => cases semList ρ done <;> simp [bind, Option.bind]
  | some b =>
    by_cases hb : b.1 = 0
    · simp [bind, Option.bind, hb]
    · simp [bind, Option.bind, hb]

theorem insertBranch_sem {ρ c t f} : sem ρ (insertBranch c t f) = sem ρ (.branch c t f) := by
  induction c using DF.ind with
  | branch a x y _ h2 h3 =>
    simp only [insertBranch]
    rw [sem_branch, h2, h3, sem_branch, sem_branch, sem_branch, sem_branch]
    cases sem ρ a with
    | none => rfl
    | some b => by_cases hb : b.1 = 0 <;> simp [bind, Option.bind, hb]
  | _ => rfl

/-- Hoisting conditionals out of a context `F` that distributes over them. -/
theorem hoistNode_sem {ρ : Env} {bb : Bool} {F : DF → Option (Int × Int)} {k : DF → Py DF}
    (hF : ∀ c t f, F (.branch c t f) = (do let b ← sem ρ c; if b.1 ≠ 0 then F t else F f))
    (hk : ∀ n r, k n = .ok r → n.isBranch = false → Rf bb (F n) (sem ρ r)) {n r} (h : hoistNode k n = .ok r) :
    Rf bb (F n) (sem ρ r) := by
  induction n using DF.ind generalizing r with
  | branch c t f _ h2 h3 =>
    simp only [hoistNode, bind_ok, ok_inj] at h
    obtain ⟨a, ha, b, hb, rfl⟩ := h
    rw [hF, sem_branch]
    refine Rf.bind (Rf.refl _) (fun v => ?_)
    split
    · exact h2 ha
    · exact h3 hb
  | _ => exact hk _ _ h rfl

theorem hoistList_sem {ρ : Env} {bb : Bool} {F : List (Int × Int) → Option (Int × Int)} {k : List DF → Py DF}
    (hk : ∀ ns r, k ns = .ok r → Rf bb (do let xs ← semList ρ ns; F xs) (sem ρ r)) {done ns r}
    (h : hoistList k done ns = .ok r) : Rf bb (do let xs ← semList ρ (done ++ ns); F xs) (sem ρ r) := by
  induction ns generalizing done r with
  | nil => rw [List.append_nil]; exact hk _ _ h
  | cons n ns ih =>
    refine hoistNode_sem (F := fun n => do let xs ← semList ρ (done ++ n :: ns); F xs) (fun c t f => semList_branch) ?_ h
    intro m r' h' _
    have := ih h'
    simpa using this

/-- The value of selecting element or bit `i` of `v`. -/
def ptrSem (ρ : Env) (v : DF) (i : Int × Int) : Option (Int × Int) :=
  match v with
  | .term n =>
    match ρ.arr n with
    | some f => f i.1
    | none => do let x ← ρ.sig n; bitVal x.1 i.1
  | v => do let x ← sem ρ v; bitVal x.1 i.1

theorem sem_ptr {ρ v p} : sem ρ (.ptr v p) = (do let i ← sem ρ p; ptrSem ρ v i) := by
  cases v <;> first | (simp only [sem, ptrSem]; done) | (simp only [sem]; rfl)

theorem ptrSem_plain {ρ : Env} {bb : Bool} (ha : ArraysOK ρ) (hb : bb = true → ∀ n, ρ.arr n = none) (v : DF) (i : Int × Int) :
    Rf bb (do let x ← sem ρ v; bitVal x.1 i.1) (ptrSem ρ v i) := by
  cases v with
  | term n =>
    simp only [ptrSem, sem]
    cases hn : ρ.arr n with
    | none => exact Rf.refl _
    | some f =>
      rw [ha n f hn]
      refine ⟨by simp [bind, Option.bind], fun h => ?_⟩
      rw [hb h n] at hn; simp at hn
  | _ => exact Rf.refl _

theorem reorder_term {k n r} (h : reorder k (.term n) = .ok r) : r = .term n := by
  cases k <;> simp [reorder] at h; exact h.symm

theorem reorder_sem {ρ : Env} {bb : Bool} (ha : ArraysOK ρ) (hb : bb = true → ∀ n, ρ.arr n = none) {k t r}
    (h : reorder k t = .ok r) : Rf bb (sem ρ t) (sem ρ r) := by
  induction k generalizing t r with
  | zero => simp [reorder] at h
  | succ k ih =>
    have ihL : ∀ {ns rs}, List.mapM (reorder k) ns = .ok rs → Rf bb (semList ρ ns) (semList ρ rs) := by
      intro ns rs hm
      rw [mapM_ok] at hm
      induction hm with
      | nil => exact Rf.refl _
      | cons a _ ih2 =>
        simp only [semList]
        exact Rf.bind (ih a) (fun v => Rf.bind ih2 (fun _ => Rf.refl _))
    cases t with
    | branch c a b =>
      simp only [reorder, bind_ok, ok_inj] at h
      obtain ⟨t', ht, f', hf, c', hc, rfl⟩ := h
      have : sem ρ (if c'.isBranch = true then insertBranch c' t' f' else .branch c' t' f') = sem ρ (.branch c' t' f') := by
        split
        · exact insertBranch_sem
        · rfl
      rw [this, sem_branch, sem_branch]
      refine Rf.bind (ih hc) (fun v => ?_)
      split
      · exact ih ht
      · exact ih hf
    | op o ns =>
      simp only [reorder, bind_ok] at h
      obtain ⟨rs, hrs, h⟩ := h
      have e : ∀ ms, sem ρ (.op o ms) = (do let xs ← semList ρ ms; (do
          let v ← opSem o (xs.map (·.1)) (maxWidth (xs.map (·.2))).toNat
          some (v, opWidth o (xs.map (·.2))))) := fun ms => by simp [sem]
      refine Rf.trans (y := sem ρ (.op o rs)) ?_ ?_
      · rw [e, e]; exact Rf.bind (ihL hrs) (fun _ => Rf.refl _)
      · split at h
        · rw [e]
          refine hoistList_sem (done := []) (fun ms r hr => ?_) h
          obtain ⟨rfl, _⟩ := DF.mkOp_ok hr
          exact Rf.of_eq (e ms).symm
        · obtain ⟨rfl, _⟩ := DF.mkOp_ok h
          exact Rf.refl _
    | concat ns =>
      simp only [reorder, bind_ok] at h
      obtain ⟨rs, hrs, h⟩ := h
      have e : ∀ ms, sem ρ (.concat ms) = (do let xs ← semList ρ ms; concatVal xs) := fun ms => by simp [sem]
      refine Rf.trans (y := sem ρ (.concat rs)) ?_ ?_
      · rw [e, e]; exact Rf.bind (ihL hrs) (fun _ => Rf.refl _)
      · split at h
        · rw [e]
          refine hoistList_sem (done := []) (fun ms r hr => ?_) h
          simp at hr; subst hr
          exact Rf.of_eq (e ms).symm
        · simp at h; subst h; exact Rf.refl _
    | psel v m l =>
      simp only [reorder, bind_ok] at h
      obtain ⟨m', hm, l', hl, v', hv, h⟩ := h
      have e : ∀ v m l, sem ρ (.psel v m l) = (do let v ← sem ρ v; let m ← sem ρ m; let l ← sem ρ l; pselVal v.1 m.1 l.1) :=
        fun v m l => by simp [sem]
      split at h
      · simp at h
      · refine Rf.trans (y := sem ρ (.psel v' m' l')) ?_ ?_
        · rw [e, e]
          exact Rf.bind (ih hv) (fun _ => Rf.bind (ih hm) (fun _ => Rf.bind (ih hl) (fun _ => Rf.refl _)))
        · split at h
          · rw [e]
            refine hoistNode_sem (F := fun v => do let v ← sem ρ v; let m ← sem ρ m'; let l ← sem ρ l'; pselVal v.1 m.1 l.1)
              ?_ ?_ h
            · intro c t f
              rw [sem_branch]
              cases sem ρ c with
              | none => rfl
              | some b => by_cases hb : b.1 = 0 <;> simp [bind, Option.bind, hb]
            · intro n r hr _
              split at hr
              · simp at hr; subst hr; exact Rf.of_eq (by simp [sem, bind, Option.bind])
              · simp at hr; subst hr; exact Rf.of_eq (e _ _ _).symm
          · simp at h; subst h; exact Rf.refl _
    | ptr v p =>
      simp only [reorder, bind_ok] at h
      obtain ⟨p', hp, v', hv, h⟩ := h
      have hcong : Rf bb (sem ρ (.ptr v p)) (sem ρ (.ptr v' p')) := by
        rw [sem_ptr, sem_ptr]
        refine Rf.bind (ih hp) (fun i => ?_)
        cases v with
        | term n => rw [reorder_term hv]; exact Rf.refl _
        | _ => exact Rf.trans (Rf.bind (ih hv) (fun _ => Rf.refl _)) (ptrSem_plain ha hb v' i)
      refine Rf.trans hcong ?_
      split at h
      · rename_i c pt pf
        simp only [bind_ok, ok_inj] at h
        obtain ⟨a, ha', b, hb', rfl⟩ := h
        have e : sem ρ (.ptr v' (.branch c pt pf)) =
            (do let b ← sem ρ c; if b.1 ≠ 0 then sem ρ (.ptr v' pt) else sem ρ (.ptr v' pf)) := by
          rw [sem_ptr, sem_ptr, sem_ptr, sem_branch]
          cases sem ρ c with
          | none => rfl
          | some b => by_cases hb : b.1 = 0 <;> simp [bind, Option.bind, hb]
        rw [e, sem_branch]
        refine Rf.bind (Rf.refl _) (fun x => ?_)
        split
        · exact ih ha'
        · exact ih hb'
      · split at h
        · rename_i hvb
          have e : sem ρ (.ptr v' p') = (do let i ← sem ρ p'; let x ← sem ρ v'; bitVal x.1 i.1) := by
            rw [sem_ptr]
            cases v' <;> simp_all [DF.isBranch, ptrSem]
          rw [e]
          refine hoistNode_sem (F := fun v => do let i ← sem ρ p'; let x ← sem ρ v; bitVal x.1 i.1) ?_ ?_ h
          · intro c t f
            rw [sem_branch]
            cases sem ρ p' <;> cases sem ρ c with
            | none => rfl
            | some b => by_cases hb : b.1 = 0 <;> simp [bind, Option.bind, hb]
          · intro n r hr _
            split at hr
            · simp at hr; subst hr; exact Rf.of_eq (by cases sem ρ p' <;> simp [sem, bind, Option.bind])
            · simp at hr; subst hr
              rw [sem_ptr]
              exact Rf.bind (Rf.refl _) (fun i => ptrSem_plain ha hb _ i)
        · simp at h; subst h; exact Rf.refl _
    | delay n =>
      simp only [reorder, bind_ok, ok_inj] at h
      obtain ⟨n', hn, rfl⟩ := h
      exact Rf.of_eq (by simp [sem])
    | sys s ns => simp [reorder] at h
    | _ => simp [reorder] at h; subst h; exact Rf.refl _

/-- **C14** `reorder` preserves the value: whenever a tree has a value under a valuation, the reordered tree has
the same value (and width). -/
theorem C14_reorder_value (ρ : Env) (ha : ArraysOK ρ) (k : Nat) (t r : DF) (h : reorder k t = .ok r) (x : Int × Int)
    (hs : sem ρ t = some x) : sem ρ r = some x :=
  (reorder_sem (bb := false) ha (by simp) h).1 x hs

/-- **C14** In designs without arrays the reordered tree has a value exactly when the original has, and it is the
same. -/
theorem C14_reorder_value_iff (ρ : Env) (ha : ∀ n, ρ.arr n = none) (k : Nat) (t r : DF) (h : reorder k t = .ok r) :
    sem ρ r = sem ρ t :=
  ((reorder_sem (bb := true) (fun n f hf => by rw [ha n] at hf; simp at hf) (fun _ => ha) h).2 rfl).symm

/-! Non-vacuity: `(s ? a : b)[(s ? 1 : 0)] + {a, (s ? a : b)}`. -/
def c14n (c : Char) : DF := .term [⟨[c], .signal, none⟩]
def c14t : DF :=
  .op .plus [.ptr (.branch (c14n 's') (c14n 'a') (c14n 'b')) (.branch (c14n 's') (.intc ['1']) (.intc ['0'])), c14n 'a']
def c14env : Env := ⟨fun n => if n = [⟨['s'], .signal, none⟩] then some (1, 1) else some (6, 4), fun _ => none, 32⟩

example : ArraysOK c14env ∧
    reorder 5 c14t = .ok (.branch (c14n 's')
      (.branch (c14n 's') (.op .plus [.ptr (c14n 'a') (.intc ['1']), c14n 'a']) (.op .plus [.ptr (c14n 'b') (.intc ['1']), c14n 'a']))
      (.branch (c14n 's') (.op .plus [.ptr (c14n 'a') (.intc ['0']), c14n 'a']) (.op .plus [.ptr (c14n 'b') (.intc ['0']), c14n 'a']))) ∧
    sem c14env c14t = some (7, 4) := by
  refine ⟨fun n f h => by simp [c14env] at h, by decide, by decide⟩

end Pyv
