import Verif.Props.BaProps
/-
  C74: reading a signal whose parts are assigned by blocking assignments.
-/
namespace Pyv

/-- An assignment to a part other than the range from `m` to `l`: it has bounds, and their values are not `m` and `l`. -/
def PartOther (s : BV) (m l : DF) (b : Bind) : Prop :=
  ¬ (b.msb = .none ∧ b.lsb = .none) ∧ ∃ m' l', s.opt b.msb = .ok m' ∧ s.opt b.lsb = .ok l' ∧ ¬ (m' = m ∧ l' = l)

/-- The assignment to the whole signal with the same tree. -/
def Bind.full (b : Bind) : Bind := { b with msb := .none, lsb := .none }

theorem fitGo_skip {s : BV} {m l : DF} : ∀ (pre rest : List Bind), (∀ b ∈ pre, PartOther s m l b) →
    BV.getFitTree.go s m l (pre ++ rest) = BV.getFitTree.go s m l rest
  | [], _, _ => rfl
  | b :: pre, rest, h => by
    obtain ⟨h1, m', l', hm, hl, h2⟩ := h b (by simp)
    rw [List.cons_append, BV.getFitTree.go.eq_def]
    simp only [h1, if_false, hm, hl, ok_bind, h2]
    exact fitGo_skip pre rest (fun c hc => h c (by simp [hc]))

/-- **C74** (reads). A signal with blocking assignments is read through the first assignment, in the order in which they
were first made, to the whole signal or to its full declared range, and an assignment to the full range counts like one to
the whole signal. -/
theorem C74_read_full (s : BV) (n : ScopeChain) (t : Term) (m l : DF) (pre post : List Bind) (b : Bind) (path : CondPath)
    (ht : s.terms.get? n = some t) (hm : s.opt t.msb = .ok m) (hl : s.opt t.lsb = .ok l)
    (hpre : ∀ c ∈ pre, PartOther s m l c)
    (hb : (b.msb = .none ∧ b.lsb = .none) ∨ (s.opt b.msb = .ok m ∧ s.opt b.lsb = .ok l)) :
    s.removeOverwrapped n (pre ++ b :: post) path = replaceUndefined n (diffBranchTree b.tree path).1 ∧
    s.removeOverwrapped n (pre ++ b :: post) path = s.removeOverwrapped n [b.full] path := by
  have hgo : BV.getFitTree.go s m l (b :: post) = .ok (some b.tree) := by
    rw [BV.getFitTree.go.eq_def]
    by_cases hw : b.msb = .none ∧ b.lsb = .none
    · simp only [hw, and_self, if_true]
    · obtain ⟨h1, h2⟩ := hb.resolve_left hw
      simp only [hw, if_false, h1, h2, ok_bind, and_self, if_true]
  have e1 : s.removeOverwrapped n (pre ++ b :: post) path = replaceUndefined n (diffBranchTree b.tree path).1 := by
    simp only [BV.removeOverwrapped, ht, BV.getFitTree, hm, hl, ok_bind, fitGo_skip pre _ hpre, hgo]
  have e2 : s.removeOverwrapped n [b.full] path = replaceUndefined n (diffBranchTree b.tree path).1 := by
    simp only [BV.removeOverwrapped, ht, BV.getFitTree, hm, hl, ok_bind]
    rw [BV.getFitTree.go.eq_def]
    simp only [Bind.full, and_self, if_true, ok_bind]
  exact ⟨e1, e1.trans e2.symm⟩

/-- **C74** (reads). A signal of which only other parts are assigned is read as the concatenation of the parts that C84
describes. -/
theorem C74_read_parts (s : BV) (n : ScopeChain) (t : Term) (m l : DF) (bs : List Bind) (path : CondPath)
    (ht : s.terms.get? n = some t) (hm : s.opt t.msb = .ok m) (hl : s.opt t.lsb = .ok l) (hbs : ∀ c ∈ bs, PartOther s m l c) :
    s.removeOverwrapped n bs path =
      (MergeEnv.mergedTree ⟨s.terms, [], [], s.opt, s.opt, s.reo⟩ bs >>= fun d => replaceUndefined n (diffBranchTree d path).1) := by
  have hgo : BV.getFitTree.go s m l bs = .ok none := by
    have := fitGo_skip (s := s) (m := m) (l := l) bs [] hbs
    rw [List.append_nil] at this
    rw [this]; rfl
  simp only [BV.removeOverwrapped, ht, BV.getFitTree, hm, hl, ok_bind, hgo]

/-- **C74** fails for a part assigned after the whole, whatever the two assignments are: a signal that is assigned as a whole
and then in a part is read as if the part had not been assigned. -/
theorem C74_fails_parts (s : BV) (n : ScopeChain) (t : Term) (m l : DF) (whole : Bind) (parts : List Bind) (path : CondPath)
    (ht : s.terms.get? n = some t) (hm : s.opt t.msb = .ok m) (hl : s.opt t.lsb = .ok l)
    (hb : (whole.msb = .none ∧ whole.lsb = .none) ∨ (s.opt whole.msb = .ok m ∧ s.opt whole.lsb = .ok l)) :
    s.removeOverwrapped n (whole :: parts) path = s.removeOverwrapped n [whole] path := by
  have h1 := (C74_read_full s n t m l [] parts whole path ht hm hl (by simp) hb).1
  have h2 := (C74_read_full s n t m l [] [] whole path ht hm hl (by simp) hb).1
  simp only [List.nil_append] at h1 h2
  rw [h1, h2]

/-! ### A module with a vector -/

/-- The state of the module of C58 where `c` has 4 bits. -/
def c74v : BV :=
  let terms := Dict.set c58terms (c58n "c") ⟨c58n "c", [.reg], .intc ['3'], .intc ['0'], none⟩
  { c58s with terms := terms, octx := ⟨terms, [], 32, fun _ => none⟩ }

/-- The tree that reading `x` gives after the block, and the trees of the intermediate values. -/
def c74r (body : Stmt) (x : String) : Option (DF) :=
  match c74v.visitAlways [] body with
  | .error _ => none
  | .ok s => (s.getBindlist (c58n x)).head?.map (·.tree)

/-- Numbers and bounds. -/
def c74p (n : String) (m l : String) : Ex := .psel (c58i n) (.intc m.toList) (.intc l.toList)

/-- **C74** fails for a part assigned after the whole, in an analysis: in `c = a; c[1:0] = b; x = c` the assigned value of
`x` is the intermediate value of the first assignment, which is `a`; `b` is lost. -/
theorem C74_fails_part :
    c74r (.block none [.ba (c58i "c") (c58i "a"), .ba (c74p "c" "1" "0") (c58i "b"), .ba (c58i "x") (c58i "c")]) "x" =
      some (.term (c58n "_rn2_x")) ∧
    c74r (.block none [.ba (c58i "c") (c58i "a"), .ba (c74p "c" "1" "0") (c58i "b"), .ba (c58i "x") (c58i "c")]) "_rn2_x" =
      some (.term (c58n "_rn0_c")) ∧
    c74r (.block none [.ba (c58i "c") (c58i "a"), .ba (c74p "c" "1" "0") (c58i "b"), .ba (c58i "x") (c58i "c")]) "_rn0_c" =
      some (.term (c58n "a")) := by decide +kernel

/-- The full range and the whole are read alike, and parts are put together. -/
example :
    c74r (.block none [.ba (c74p "c" "3" "0") (c58i "a"), .ba (c58i "x") (c58i "c")]) "_rn1_x" = some (.term (c58n "_rn0_c")) ∧
    c74r (.block none [.ba (c58i "c") (c58i "a"), .ba (c58i "x") (c58i "c")]) "_rn1_x" = some (.term (c58n "_rn0_c")) ∧
    c74r (.block none [.ba (c74p "c" "1" "0") (c58i "a"), .ba (c74p "c" "3" "2") (c58i "b"), .ba (c58i "x") (c58i "c")]) "_rn2_x" =
      some (.concat [.term (c58n "_rn1_c"), .term (c58n "_rn0_c")]) := by decide +kernel

/-- The hypotheses are met by the assignments `c[3:0] = a` and `c[1:0] = b`. -/
example : ∃ m l, c74v.opt (.intc ['3']) = .ok m ∧ c74v.opt (.intc ['0']) = .ok l ∧
    PartOther c74v m l ⟨.term (c58n "b"), c58n "c", .intc ['1'], .intc ['0'], .none, [], none⟩ := by
  refine ⟨.evi 3 (some 32), .evi 0 (some 32), by decide +kernel, by decide +kernel, by decide, .evi 1 (some 32), .evi 0 (some 32), by decide +kernel, by decide +kernel, by decide⟩

end Pyv
