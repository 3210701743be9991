import Verif.Props.NbTop
/-
  C58: modules of several always blocks; concrete cases; statements for which the tree is wrong.
-/
namespace Pyv

/-- The always blocks of a module in order (bindvisitor.py:222-232, called for every item by visit.py:24-27). -/
def BV.visitAlwaysList (s : BV) : List (List Sens × Stmt) → Py BV
  | [] => .ok s
  | a :: as => do
    let s' ← s.visitAlways a.1 a.2
    s'.visitAlwaysList as

theorem visitAlwaysList_append (as bs : List (List Sens × Stmt)) : ∀ s : BV, s.visitAlwaysList (as ++ bs) = (do
    let s' ← s.visitAlwaysList as
    s'.visitAlwaysList bs) := by
  induction as with
  | nil => intro s; rfl
  | cons a as ih =>
    intro s
    simp only [List.cons_append, BV.visitAlwaysList]
    cases h : s.visitAlways a.1 a.2 with
    | error e => rfl
    | ok s1 => simp only [ok_bind, ih]

/-- The clock and the reset of a block do not depend on the blocks before it. -/
theorem alwaysInfo_same {s s' : BV} {mod : ScopeChain} (hm : s.AtModule mod) (hm' : s'.AtModule mod) (h : s.Same s') (ls : List Sens) :
    s'.alwaysInfo mod ls = s.alwaysInfo mod ls := by
  obtain ⟨m, h1, h2, -⟩ := hm.frame
  obtain ⟨m', h1', h2', -⟩ := hm'.frame
  unfold BV.alwaysInfo
  have : s'.sensStep mod = s.sensStep mod := by
    funext st l
    have e : ∀ n, s'.searchTerminal n mod = s.searchTerminal n mod := by
      intro n; rw [search_mod hm.ne h1 h2, search_mod hm.ne h1' h2', h.terms]
    unfold BV.sensStep
    simp only [e]
  rw [this]

/-- Blocks that do not assign `x`, before anything assigns it. -/
theorem before_blocks {mod x : ScopeChain} (as : List (List Sens × Stmt)) : ∀ (s s' : BV), s.AtModule mod → s.binds.get? x = none →
    (∀ a ∈ as, a.2.plain (resOf s.terms mod) x = true ∧ a.2.assigns (resOf s.terms mod) x = false) →
    s.visitAlwaysList as = .ok s' → s'.AtModule mod ∧ s.Same s' ∧ s'.binds.get? x = none := by
  induction as with
  | nil => intro s s' hm hx _ h; simp only [BV.visitAlwaysList, ok_inj] at h; subst h; exact ⟨hm, .refl _, hx⟩
  | cons a as ih =>
    intro s s' hm hx ha h
    simp only [BV.visitAlwaysList, bind_ok] at h
    obtain ⟨s1, h1, h⟩ := h
    obtain ⟨hp, hn⟩ := ha a (by simp)
    obtain ⟨g1, g2, g3⟩ := always_module hm hp (.inl hx) h1
    have hx1 : s1.binds.get? x = none := by
      rcases g3 with g3 | ⟨i, b, e1, e2, e3⟩
      · exact g3
      · have := C58_nonblocking_noassign s s1 mod x a.1 a.2 hm hx hp hn h1
        simp [BV.getBindlist, e1, BV.deref, e2] at this
    obtain ⟨k1, k2, k3⟩ := ih s1 s' g1 hx1 (by rw [g2.terms]; exact fun b hb => ha b (by simp [hb])) h
    exact ⟨k1, g2.trans k2, k3⟩

/-- Blocks that do not assign `x`, after something assigns it. -/
theorem after_blocks {mod x : ScopeChain} (as : List (List Sens × Stmt)) : ∀ (s s' : BV) (b : Bind), s.AtModule mod →
    s.getBindlist x = [b] → b.whole →
    (∀ a ∈ as, a.2.plain (resOf s.terms mod) x = true ∧ a.2.assigns (resOf s.terms mod) x = false) →
    s.visitAlwaysList as = .ok s' →
    ∃ b', s'.getBindlist x = [b'] ∧ b'.whole ∧ b'.always = b.always ∧ b'.tree = b.tree := by
  induction as with
  | nil => intro s s' b hm hx hb _ h; simp only [BV.visitAlwaysList, ok_inj] at h; subst h; exact ⟨b, hx, hb, rfl, rfl⟩
  | cons a as ih =>
    intro s s' b hm hx hb ha h
    simp only [BV.visitAlwaysList, bind_ok] at h
    obtain ⟨s1, h1, h⟩ := h
    obtain ⟨hp, hn⟩ := ha a (by simp)
    obtain ⟨b1, e1, e2, e3, e4⟩ := C58_other_block_partial s s1 mod x a.1 a.2 hm b hx hb hp hn h1
    have hxx : s.binds.get? x = none ∨ ∃ i b, s.binds.get? x = some [i] ∧ s.objs[i]? = some b ∧ b.whole := by
      obtain ⟨i, q1, q2⟩ := bindlist_one hm hx
      exact .inr ⟨i, b, q1, q2, hb⟩
    obtain ⟨g1, g2, -⟩ := always_module hm hp hxx h1
    obtain ⟨b2, f1, f2, f3, f4⟩ := ih s1 s' b1 g1 e1 e2 (by rw [g2.terms]; exact fun b hb => ha b (by simp [hb])) h
    exact ⟨b2, f1, f2, f3.trans e3, f4.trans e4⟩

/-- **C58** (partial, as for one block) In a module where one always block assigns `x` and any number of others do not,
the tree of `x` after all of them gives the value that block schedules last for `x`, with the clock and the reset of that
block. -/
theorem C58_module_partial (s s' : BV) (mod x : ScopeChain) (pre post : List (List Sens × Stmt)) (ls : List Sens) (body : Stmt)
    (hm : s.AtModule mod) (hx : s.binds.get? x = none)
    (hothers : ∀ a ∈ pre ++ post, a.2.plain (resOf s.terms mod) x = true ∧ a.2.assigns (resOf s.terms mod) x = false)
    (hp : body.plain (resOf s.terms mod) x = true) (hc : (body.chk (resOf s.terms mod) x .fresh).isSome = true)
    (h : s.visitAlwaysList (pre ++ (ls, body) :: post) = .ok s') :
    (s'.getBindlist x = [] ∧ ∀ ρ, s.ArraysAgree ρ → ∀ v, nbRun ρ (resOf s.terms mod) x body none = some v → v = none) ∨
      ∃ b, s'.getBindlist x = [b] ∧ b.whole ∧
        (∃ info, s.alwaysInfo mod ls = .ok info ∧ b.always = some info) ∧
        ∀ ρ, s.ArraysAgree ρ → ∀ v, nbRun ρ (resOf s.terms mod) x body none = some v → sched ρ b.tree = some v := by
  rw [visitAlwaysList_append] at h
  simp only [bind_ok, BV.visitAlwaysList] at h
  obtain ⟨s1, h1, s2, h2, h3⟩ := h
  obtain ⟨m1, e1, x1⟩ := before_blocks pre s s1 hm hx (fun a ha => hothers a (by simp [ha])) h1
  have ht : resOf s1.terms mod = resOf s.terms mod := by rw [e1.terms]
  obtain ⟨m2, e2, -⟩ := always_module m1 (by rw [ht]; exact hp) (.inl x1) h2
  have hA : ∀ ρ, s.ArraysAgree ρ ↔ s1.ArraysAgree ρ := by intro ρ; simp only [BV.ArraysAgree, e1.terms]
  have ht2 : resOf s2.terms mod = resOf s.terms mod := by rw [e2.terms, ht]
  obtain ⟨-, hr⟩ := C58_nonblocking_partial s1 s2 mod x ls body m1 x1 (by rw [ht]; exact hp) (by rw [ht]; exact hc) h2
  rw [ht] at hr
  rcases hr with ⟨r1, r2⟩ | ⟨b, r1, r2, ⟨info, r3, r3'⟩, r4⟩
  · refine .inl ⟨?_, fun ρ hρ => r2 ρ ((hA ρ).mp hρ)⟩
    have hx2 : s2.binds.get? x = none := by
      cases e : s2.binds.get? x with
      | none => rfl
      | some ids =>
        have g := (always_module m1 (by rw [ht]; exact hp) (.inl x1) h2).2.2
        rcases g with g | ⟨i, b, q1, q2, q3⟩
        · rw [g] at e; cases e
        · simp [BV.getBindlist, q1, BV.deref, q2] at r1
    have := (before_blocks post s2 s' m2 hx2 (by rw [ht2]; exact fun a ha => hothers a (by simp [ha])) h3).2.2
    simp [BV.getBindlist, this, BV.deref]
  · obtain ⟨b', k1, k2, k3, k4⟩ := after_blocks post s2 s' b m2 r1 r2 (by rw [ht2]; exact fun a ha => hothers a (by simp [ha])) h3
    refine .inr ⟨b', k1, k2, ⟨info, by rw [← alwaysInfo_same hm m1 e1]; exact r3, k3.trans r3'⟩, ?_⟩
    intro ρ hρ v hv
    rw [k4]
    exact r4 ρ ((hA ρ).mp hρ) v hv

/-! ### A concrete module -/

/-- A module. -/
def c58m : ScopeChain := [⟨"m".toList, .module, none⟩]

/-- Its signals. -/
def c58n (n : String) : ScopeChain := c58m ++ [⟨n.toList, .signal, none⟩]

/-- One-bit terms. -/
def c58terms : Dict ScopeChain Term :=
  ["clk", "rst", "a", "b", "c", "x", "y"].map (fun n => (c58n n, ⟨c58n n, [.reg], .intc ['0'], .intc ['0'], none⟩))

/-- The state of the visitor at the module. -/
def c58s : BV where
  frames := [(c58m, { previous := [], isModule := true })]
  current := c58m
  terms := c58terms
  octx := ⟨c58terms, [], 32, fun _ => none⟩
  fuel := 20

/-- An identifier. -/
def c58i (n : String) : Ex := .ident [] n.toList

/-- A nonblocking assignment of a number. -/
def c58a (n : String) (v : String) : Stmt := .nb (c58i n) (.intc v.toList)

/-- A clock edge. -/
def c58clk : List Sens := [⟨some (c58i "clk"), "posedge".toList⟩, ⟨some (c58i "rst"), "negedge".toList⟩]

theorem c58s_module : c58s.AtModule c58m where
  current := rfl
  ne := by decide
  frame := ⟨_, rfl, rfl, rfl, rfl⟩
  flat := by
    constructor
    · intro ls l n _
      cases ls <;> simp [c58s, c58terms, c58m, c58n, Dict.has]
    · intro n t h
      have := Dict.mem_of_get? h
      simp only [c58s, c58terms, List.map_cons, List.map_nil, List.mem_cons, List.not_mem_nil, or_false] at this
      rcases this with e | e | e | e | e | e | e <;> (cases e; rfl)
  nore := rfl
  objs := by intro n ids h; cases h

/-- The tree and the events of `x` after always blocks. -/
def c58run (as : List (List Sens × Stmt)) : Option (List (DF × Option AlwaysInfo)) :=
  match c58s.visitAlwaysList as with
  | .ok s => some ((s.getBindlist (c58n "x")).map (fun b => (b.tree, b.always)))
  | .error _ => none


/-- A valuation of the one-bit signals. -/
def c58ρ (vs : List (String × Int)) : Env :=
  ⟨fun n => match vs.find? (fun v => c58n v.1 = n) with | some v => some (v.2, 1) | none => none, fun _ => none, 32⟩

theorem c58ρ_arrays (vs : List (String × Int)) : c58s.ArraysAgree (c58ρ vs) := by
  refine ⟨fun n f h => by simp [c58ρ] at h, ?_⟩
  intro n t h
  have := Dict.mem_of_get? h
  simp only [c58s, c58terms, List.map_cons, List.map_nil, List.mem_cons, List.not_mem_nil, or_false] at this
  rcases this with e | e | e | e | e | e | e <;> (cases e; simp [c58ρ])

/-- What the tree of `x` gives after one always block, and what the block schedules for `x`. -/
def c58cmp (body : Stmt) (vs : List (String × Int)) : Option (Option (Int × Int)) × Option (Option (Int × Int)) :=
  (match c58run [(c58clk, body)] with | some [(t, _)] => sched (c58ρ vs) t | _ => none,
   nbRun (c58ρ vs) (resOf c58s.terms c58m) (c58n "x") body none)

/-- The events of `c58clk`. -/
def c58info : AlwaysInfo :=
  ⟨some (c58n "clk"), some "posedge".toList, some 0, some (c58n "rst"), some "negedge".toList, some 0⟩

/-- `if (!rst) x <= 0; else begin y <= 1; case (a) 1: x <= 1; default: if (b) x <= 2; endcase end` -/
def c58good : Stmt := .block none
  [.ifs (.un .unot (c58i "rst")) (c58a "x" "0") (.block none
    [c58a "y" "1", .cases .case_ (c58i "a") [some [.intc ['1']], none] [c58a "x" "1", .ifs (c58i "b") (c58a "x" "2") .skip]])]

/-- The hypotheses of C58 are met by a module of three always blocks. -/
example : c58s.AtModule c58m ∧ c58s.binds.get? (c58n "x") = none ∧
    c58good.plain (resOf c58s.terms c58m) (c58n "x") = true ∧
    (c58good.chk (resOf c58s.terms c58m) (c58n "x") .fresh).isSome = true ∧
    (c58a "y" "3").plain (resOf c58s.terms c58m) (c58n "x") = true ∧
    (c58a "y" "3").assigns (resOf c58s.terms c58m) (c58n "x") = false ∧
    c58run [(c58clk, c58a "y" "3"), (c58clk, c58good), (c58clk, c58a "y" "3")] =
      some [(.branch (.op .unot [.term (c58n "rst")]) (.intc ['0'])
        (.branch (.op .eq [.term (c58n "a"), .intc ['1']]) (.intc ['1'])
          (.branch (.intc ['1']) (.branch (.term (c58n "b")) (.intc ['2']) .none) .none)), some c58info)] ∧
    c58cmp c58good [("rst", 1), ("a", 0), ("b", 1)] = (some (some (2, 32)), some (some (2, 32))) ∧
    c58cmp c58good [("rst", 1), ("a", 0), ("b", 0)] = (some none, some none) :=
  ⟨c58s_module, rfl, by decide +kernel, by decide +kernel, by decide +kernel, by decide +kernel, by decide +kernel,
    by decide +kernel, by decide +kernel⟩

/-- The default before the conditions: also covered.  `begin x <= 0; if (a) x <= 1; else if (b) x <= 2; end` -/
example : ((Stmt.block none [c58a "x" "0", .ifs (c58i "a") (c58a "x" "1") (.ifs (c58i "b") (c58a "x" "2") .skip)]).chk
    (resOf c58s.terms c58m) (c58n "x") .fresh).isSome = true ∧
    c58cmp (.block none [c58a "x" "0", .ifs (c58i "a") (c58a "x" "1") (.ifs (c58i "b") (c58a "x" "2") .skip)])
      [("a", 0), ("b", 0)] = (some (some (0, 32)), some (some (0, 32))) := by decide +kernel

/-- `if (!rst) x <= 0; else if (a) if (b) x <= 1;` -/
example : ((Stmt.ifs (.un .unot (c58i "rst")) (c58a "x" "0") (.ifs (c58i "a") (.ifs (c58i "b") (c58a "x" "1") .skip) .skip)).chk
    (resOf c58s.terms c58m) (c58n "x") .fresh).isSome = true := by decide +kernel

/-- Another block: the hypotheses of `C58_other_block_partial` are met after the block `c58good`. -/
example : ∃ s b, c58s.visitAlways c58clk c58good = .ok s ∧ s.AtModule c58m ∧ s.getBindlist (c58n "x") = [b] ∧ b.whole := by
  cases h : c58s.visitAlways c58clk c58good with
  | error e =>
    have : (c58run [(c58clk, c58good)]).isSome = true := by decide +kernel
    simp only [c58run, BV.visitAlwaysList, h] at this
    cases this
  | ok s =>
    have hp : c58good.plain (resOf c58s.terms c58m) (c58n "x") = true := by decide +kernel
    have hk : (c58good.chk (resOf c58s.terms c58m) (c58n "x") .fresh).isSome = true := by decide +kernel
    have hm := (always_module c58s_module hp (.inl rfl) h).1
    rcases (C58_nonblocking_partial c58s s c58m (c58n "x") c58clk c58good c58s_module rfl hp hk h).2 with ⟨h1, -⟩ | ⟨b, h1, h2, -⟩
    · have : c58run [(c58clk, c58good)] ≠ some [] := by decide +kernel
      simp [c58run, BV.visitAlwaysList, h, h1, ok_bind] at this
    · exact ⟨s, b, rfl, hm, h1, h2⟩

/-- C57: `{a, b[0]} + (c ? 1 : 2)` in the concrete module, as an expression and as a tree. -/
def c57e : Ex := .bin .plus (.concat [c58i "a", .ptr (c58i "b") (.intc ['0'])]) (.cond (c58i "c") (.intc ['1']) (.intc ['2']))

example : (c58s.flatE c58m).Agrees (c58ρ [("a", 1), ("b", 0), ("c", 0)]) (resOf c58s.terms c58m) ∧
    c58s.flatR.Agrees (c58ρ [("a", 1), ("b", 0), ("c", 0)]) (c58ρ [("a", 1), ("b", 0), ("c", 0)]) ∧
    ((c58s.flatE c58m).makeDF c57e).toOption.isSome = true ∧
    (exVal (c58ρ [("a", 1), ("b", 0), ("c", 0)]) (resOf c58s.terms c58m) c57e).map Prod.fst = some 4 :=
  ⟨flatE_agrees (c58ρ_arrays _) _, flatR_agrees (c58ρ_arrays _), by decide +kernel, by decide +kernel⟩

/-! ### Statements for which the tree is wrong -/

/-- `begin x <= 0; if (a) x <= 1; if (b) y <= 1; end`: the second if restores the overwritten value. -/
theorem C58_stale_false : c58cmp (.block none [c58a "x" "0", .ifs (c58i "a") (c58a "x" "1") .skip,
    .ifs (c58i "b") (c58a "y" "1") .skip]) [("a", 1), ("b", 1)] = (some (some (0, 32)), some (some (1, 32))) := by
  decide +kernel

/-- `begin x <= 0; if (a) begin if (b) begin if (c) x <= 1; end end end`: the first assignment is lost where `a` holds and
`b` does not. -/
theorem C58_default_lost_false : c58cmp (.block none [c58a "x" "0", .ifs (c58i "a") (.block none [.ifs (c58i "b")
    (.block none [.ifs (c58i "c") (c58a "x" "1") .skip]) .skip]) .skip]) [("a", 1), ("b", 0), ("c", 0)] =
      (some none, some (some (0, 32))) := by
  decide +kernel

/-- `begin if (a) x <= 1; if (b) if (c) x <= 2; end`: the first assignment is lost where `b` does not hold. -/
theorem C58_nested_lost_false : c58cmp (.block none [.ifs (c58i "a") (c58a "x" "1") .skip,
    .ifs (c58i "b") (.ifs (c58i "c") (c58a "x" "2") .skip) .skip]) [("a", 1), ("b", 0), ("c", 0)] =
      (some none, some (some (1, 32))) := by
  decide +kernel

/-- A default item that is not last is taken first. -/
theorem C58_default_order_false : c58cmp (.cases .case_ (c58i "a") [none, some [.intc ['1']]] [c58a "x" "2", c58a "x" "1"])
    [("a", 1)] = (some (some (2, 32)), some (some (1, 32))) := by
  decide +kernel

/-- The items of a casez (or unique case) statement are all visited without a condition: the last one wins. -/
theorem C58_casez_false (k : CaseKind) (hk : k = .casez ∨ k = .unique) :
    c58run [(c58clk, .cases k (c58i "a") [some [.intc ['1']], none] [c58a "x" "1", c58a "x" "2"])] =
      some [(.intc ['2'], some c58info)] := by
  rcases hk with rfl | rfl <;> decide +kernel

/-- The statement without the restriction on the order of assignments is false. -/
theorem C58_false : ¬ ∀ (s s' : BV) (mod x : ScopeChain) (ls : List Sens) (body : Stmt), s.AtModule mod →
    s.binds.get? x = none → body.plain (resOf s.terms mod) x = true → s.visitAlways ls body = .ok s' →
    ∀ b, s'.getBindlist x = [b] → ∀ ρ, s.ArraysAgree ρ → ∀ v,
      nbRun ρ (resOf s.terms mod) x body none = some v → sched ρ b.tree = some v := by
  intro h
  let body : Stmt := .block none [c58a "x" "0", .ifs (c58i "a") (c58a "x" "1") .skip, .ifs (c58i "b") (c58a "y" "1") .skip]
  have key : c58cmp body [("a", 1), ("b", 1)] = (some (some (0, 32)), some (some (1, 32))) := C58_stale_false
  have hn := congrArg Prod.snd key
  have ht := congrArg Prod.fst key
  simp only [c58cmp, c58run, BV.visitAlwaysList] at hn ht
  cases hv : c58s.visitAlways c58clk body with
  | error e => simp only [hv] at ht; cases ht
  | ok s' =>
    simp only [hv, ok_bind] at ht
    have hx := h c58s s' c58m (c58n "x") c58clk body c58s_module rfl (by decide +kernel) hv
    cases hb : s'.getBindlist (c58n "x") with
    | nil => simp only [hb] at ht; cases ht
    | cons b bs =>
      cases bs with
      | cons b2 bs => simp only [hb] at ht; cases ht
      | nil =>
        simp only [hb] at ht
        have := hx b hb (c58ρ [("a", 1), ("b", 1)]) (c58ρ_arrays _) _ hn
        simp only [List.map_cons, List.map_nil] at ht
        rw [this] at ht
        cases ht

/-- An else without a statement before it raises TypeError, for every condition and statement. -/
theorem C58_empty_if_raises (s : BV) (c : Ex) (f : Stmt) (hf : f.isSkip = false) :
    Stmt.visit (.ifs c .skip f) s = .error .type := by
  rw [Stmt.visit]
  simp only [Stmt.visitIf, hf, Bool.false_eq_true, if_false]
  rfl

/-- A conditional operator as the condition of a conditional operator raises AttributeError, whatever the operands. -/
theorem C57_nested_condition_raises (E : ExprEnv) (c d e t f : Ex) (c' d' e' t' f' : DF) (hc : E.makeDF c = .ok c')
    (hcb : c'.isBranch = false) (hd : E.makeDF d = .ok d') (he : E.makeDF e = .ok e') (ht : E.makeDF t = .ok t')
    (hf : E.makeDF f = .ok f') : E.makeDF (.cond (.cond c d e) t f) = .error .attribute := by
  simp only [ExprEnv.makeDF, ht, hf, hc, hd, he, ok_bind, hcb, Bool.false_eq_true, if_false]
  rfl

/-- A concatenated destination under both sides of an if: the part of the true side is taken twice. -/
theorem C58_concat_twice : ∃ u m l, c58run [(c58clk, .ifs (c58i "a") (.nb (.concat [c58i "x", c58i "y"]) (c58i "b"))
      (.nb (.concat [c58i "x", c58i "y"]) (c58i "c")))] =
    some [(.branch (.term (c58n "a")) (.psel (.psel (.term (c58n "b")) m l) m l) (.psel (.term (c58n "c")) m l), u)] :=
  ⟨some c58info,
    .op .plus [.op .plus [.op .plus [.intc ['0'], .op .minus [.intc ['0'], .intc ['0']]], .intc ['1']],
      .op .minus [.intc ['0'], .intc ['0']]],
    .op .plus [.op .plus [.intc ['0'], .op .minus [.intc ['0'], .intc ['0']]], .intc ['1']], by decide +kernel⟩

end Pyv
