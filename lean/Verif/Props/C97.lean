import Verif.Props.LoopFrames
import Verif.Props.BaProps
/-
  C97: loops in always blocks are unrolled by the second pass.
-/
namespace Pyv

/-! ### Specification -/

/-- The expression is a constant in this state, with this value. -/
def BV.Static (s : BV) (e : Ex) (v : Int) : Prop := ∃ t d, s.getTree e s.current = .ok t ∧ s.opt t = .ok d ∧ d.intAttr = .ok v

/-- The blocking assignment `l = r` was visited. -/
def BV.Assigns (l r : Ex) (s s' : BV) : Prop := Stmt.visit (.ba l r) s = .ok s'

/-- One turn: the body was visited in a new scope with this label below the current one; the blocking assignments known at its
end are known behind it; the scope stays, and the place is the same. -/
def TurnOf (b : Stmt) (lab : ScopeLabel) (s s' : BV) : Prop :=
  ∃ s1 s2, s1.current = s.current ++ [lab] ∧ s.frames.has (s.current ++ [lab]) = false ∧ b.visit s1 = .ok s2 ∧
    s2.current = s1.current ∧ s2.frames.has (s.current ++ [lab]) = true ∧
    (∃ s3, s2.copyBlocking (s.current ++ [lab]) s.current = .ok s3 ∧ s' = { s3 with current := s.current })

/-- The turns of a for loop at the value `v` of its variable: the values of the variable in its turns. -/
inductive ForTurns (b : Stmt) (l : Str) (c ql qr : Ex) : Int → BV → List Int → BV → Prop
  | stop {v x s} : s.Static c x → x ≤ 0 → ForTurns b l c ql qr v s [] s
  | turn {v x w s s1 s2 s' vs} : s.Static c x → 0 < x → TurnOf b ⟨l, .for_, some v⟩ s s1 → s1.Static qr w → s1.Assigns ql qr s2 →
      ForTurns b l c ql qr w s2 vs s' → ForTurns b l c ql qr v s (v :: vs) s'

/-- The turns of a while loop from the `k`-th on: their number. -/
inductive WhileTurns (b : Stmt) (l : Str) (c : Ex) : Nat → BV → Nat → BV → Prop
  | stop {k : Nat} {x s} : s.Static c x → x ≤ 0 → WhileTurns b l c k s 0 s
  | turn {k n : Nat} {x s s1 s'} : s.Static c x → 0 < x → TurnOf b ⟨l, .while_, some (k : Int)⟩ s s1 → WhileTurns b l c (k + 1) s1 n s' →
      WhileTurns b l c k s (n + 1) s'

/-! ### Proofs -/

theorem staticCond_static {s : BV} {c : Ex} {go : Bool} (h : s.staticCond c = .ok go) : ∃ x, s.Static c x ∧ (go = true ↔ 0 < x) := by
  unfold BV.staticCond at h
  obtain ⟨t, ht, h⟩ := bind_ok.mp h
  obtain ⟨v, hv, h⟩ := bind_ok.mp h
  split at h
  · obtain ⟨n, hn, h⟩ := bind_ok.mp h
    rw [ok_inj] at h; subst h
    exact ⟨n, ⟨t, v, ht, hv, hn⟩, by simp⟩
  · simp at h

theorem staticVal_static {s : BV} {e : Ex} {v : Int} (h : s.staticVal e = .ok v) : s.Static e v := by
  unfold BV.staticVal at h
  obtain ⟨t, ht, h⟩ := bind_ok.mp h
  obtain ⟨d, hd, h⟩ := bind_ok.mp h
  exact ⟨t, d, ht, hd, h⟩

theorem iteration_turn {b : Stmt} {lab : ScopeLabel} {s s' : BV} (h : s.iteration lab b.visit = .ok s') :
    TurnOf b lab s s' ∧ Stays s s' ∧ s.frames.has (s.current ++ [lab]) = false ∧ s'.frames.has (s.current ++ [lab]) = true := by
  refine ⟨?_, iteration_stays (visit_stays b) h⟩
  unfold BV.iteration at h
  obtain ⟨s1, h1, h⟩ := bind_ok.mp h
  obtain ⟨s2, h2, h⟩ := bind_ok.mp h
  obtain ⟨s3, h3, h⟩ := bind_ok.mp h
  rw [ok_inj] at h; subst h
  obtain ⟨hc, hn, hy, hm⟩ := enter_stays h1
  have H := visit_stays b _ _ h2
  rw [H.1, hc] at h3
  exact ⟨s1, s2, hc, hn, h2, H.1, H.2 _ hy, s3, h3, rfl⟩

theorem assigns_of {s s' : BV} {l r : Ex} {ai} (h1 : s.alwaysStatus (s.current.length + 1) s.current = .ok ai)
    (h2 : s.addBindBlocking l r ai = .ok s') : s.Assigns l r s' := by
  unfold BV.Assigns
  simp only [Stmt.visit, h1, ok_bind, h2]

theorem forLoop_turns {b : Stmt} {l : Str} {c ql qr : Ex} : ∀ (k : Nat) (v : Int) (s s' : BV),
    Stmt.forLoop l c ql qr b.visit k v s = .ok s' →
    ∃ vs, ForTurns b l c ql qr v s vs s' ∧ Stays s s' ∧ vs.Nodup ∧
      ∀ x ∈ vs, s.frames.has (s.current ++ [⟨l, .for_, some x⟩]) = false ∧ s'.frames.has (s.current ++ [⟨l, .for_, some x⟩]) = true
  | 0, v, s, s', h => by simp [Stmt.forLoop] at h
  | k + 1, v, s, s', h => by
    simp only [Stmt.forLoop] at h
    obtain ⟨go, hg, h⟩ := bind_ok.mp h
    obtain ⟨x, hx, hgo⟩ := staticCond_static hg
    split at h
    · rename_i hgt
      obtain ⟨s1, h1, h⟩ := bind_ok.mp h
      obtain ⟨n, hn, h⟩ := bind_ok.mp h
      obtain ⟨ai, ha, h⟩ := bind_ok.mp h
      obtain ⟨s2, h2, h⟩ := bind_ok.mp h
      obtain ⟨T, S1, n1, y1⟩ := iteration_turn h1
      have S2 := addBindBlocking_stays h2
      obtain ⟨vs, hvs, S3, nd, hf⟩ := forLoop_turns k n s2 s' h
      have hcur : s2.current = s.current := S2.1.trans S1.1
      rw [hcur] at hf
      refine ⟨v :: vs, .turn hx (hgo.mp hgt) T (staticVal_static hn) (assigns_of ha h2) hvs, S1.trans (S2.trans S3), ?_, ?_⟩
      · refine List.nodup_cons.mpr ⟨fun hv => ?_, nd⟩
        have := (hf v hv).1
        rw [S2.2 _ y1] at this
        cases this
      · intro y hy
        rcases List.mem_cons.mp hy with rfl | hy
        · exact ⟨n1, S3.2 _ (S2.2 _ y1)⟩
        · refine ⟨?_, (hf y hy).2⟩
          have h0 := (hf y hy).1
          cases hh : s.frames.has (s.current ++ [⟨l, .for_, some y⟩]) with
          | false => rfl
          | true => rw [S2.2 _ (S1.2 _ hh)] at h0; cases h0
    · rename_i hgt
      rw [ok_inj] at h; subst h
      refine ⟨[], .stop hx (by have := mt hgo.mpr hgt; omega), .refl s, List.nodup_nil, by simp⟩

theorem whileLoop_turns {b : Stmt} {l : Str} {c : Ex} : ∀ (k : Nat) (m : Nat) (s s' : BV),
    Stmt.whileLoop l c b.visit k (m : Int) s = .ok s' →
    ∃ n, WhileTurns b l c m s n s' ∧ Stays s s' ∧
      ∀ i, m ≤ i → i < m + n → s.frames.has (s.current ++ [⟨l, .while_, some (i : Int)⟩]) = false ∧
        s'.frames.has (s.current ++ [⟨l, .while_, some (i : Int)⟩]) = true
  | 0, m, s, s', h => by simp [Stmt.whileLoop] at h
  | k + 1, m, s, s', h => by
    simp only [Stmt.whileLoop] at h
    obtain ⟨go, hg, h⟩ := bind_ok.mp h
    obtain ⟨x, hx, hgo⟩ := staticCond_static hg
    split at h
    · rename_i hgt
      obtain ⟨s1, h1, h⟩ := bind_ok.mp h
      obtain ⟨T, S1, n1, y1⟩ := iteration_turn h1
      have h' : Stmt.whileLoop l c b.visit k ((m + 1 : Nat) : Int) s1 = .ok s' := by rw [← h]; norm_cast
      obtain ⟨n, hvs, S3, hf⟩ := whileLoop_turns k (m + 1) s1 s' h'
      rw [S1.1] at hf
      refine ⟨n + 1, .turn hx (hgo.mp hgt) T hvs, S1.trans S3, ?_⟩
      intro i hi hi2
      by_cases e : i = m
      · subst e; exact ⟨n1, S3.2 _ y1⟩
      · have h0 := hf i (by omega) (by omega)
        refine ⟨?_, h0.2⟩
        cases hh : s.frames.has (s.current ++ [⟨l, .while_, some (i : Int)⟩]) with
        | false => rfl
        | true => rw [S1.2 _ hh] at h0; cases h0.1
    · rename_i hgt
      rw [ok_inj] at h; subst h
      exact ⟨0, .stop hx (by have := mt hgo.mpr hgt; omega), .refl s, by intro i _ _; omega⟩

/-- **C97 (partial)**, for loops: the first assignment is made, then the body is visited once for each turn, in a scope of its own
named by the value of the loop variable: the static value of the first assignment, then that of the second assignment after each
turn, as long as the condition has a positive static value.  No two turns have the same value, the scopes are new and stay, and
the visit ends where it started.  Missing: conditions with a negative value, which are true but end the loop (`C97_fails_negative`). -/
theorem C97_for_partial (pl pr c ql qr : Ex) (b : Stmt) (s s' : BV) (h : Stmt.visit (.fors pl pr c ql qr b) s = .ok s') :
    ∃ l v s0 s1 vs, s.Static pr v ∧ s.Assigns pl pr s0 ∧ s0.label "for".toList = .ok (l, s1) ∧
      ForTurns b l c ql qr v s1 vs s' ∧ vs.Nodup ∧
      (∀ x ∈ vs, s.frames.has (s.current ++ [⟨l, .for_, some x⟩]) = false ∧ s'.frames.has (s.current ++ [⟨l, .for_, some x⟩]) = true) ∧
      s'.current = s.current := by
  simp only [Stmt.visit, Stmt.visitFor] at h
  obtain ⟨n, hn, h⟩ := bind_ok.mp h
  obtain ⟨ai, ha, h⟩ := bind_ok.mp h
  obtain ⟨s0, h0, h⟩ := bind_ok.mp h
  obtain ⟨⟨l, s1⟩, h1, h⟩ := bind_ok.mp h
  simp only at h
  obtain ⟨vs, hvs, S, nd, hf⟩ := forLoop_turns _ n s1 s' h
  have L : Stays s s1 := Stays.trans (s1 := s0) (addBindBlocking_stays h0) (label_stays h1)
  rw [L.1] at hf
  refine ⟨l, n, s0, s1, vs, staticVal_static hn, assigns_of ha h0, h1, hvs, nd, ?_, S.1.trans L.1⟩
  intro x hx
  refine ⟨?_, (hf x hx).2⟩
  have h0 := (hf x hx).1
  cases hh : s.frames.has (s.current ++ [⟨l, .for_, some x⟩]) with
  | false => rfl
  | true => rw [L.2 _ hh] at h0; cases h0

/-- **C97 (partial)**, while loops: the body is visited once for each turn, in a scope of its own named by the number of the turn, as
long as the condition has a positive static value. -/
theorem C97_while_partial (c : Ex) (b : Stmt) (s s' : BV) (h : Stmt.visit (.whiles c b) s = .ok s') :
    ∃ l s1 n, s.label "while".toList = .ok (l, s1) ∧ WhileTurns b l c 0 s1 n s' ∧
      (∀ i : Nat, i < n → s.frames.has (s.current ++ [⟨l, .while_, some (i : Int)⟩]) = false ∧
        s'.frames.has (s.current ++ [⟨l, .while_, some (i : Int)⟩]) = true) ∧
      s'.current = s.current := by
  simp only [Stmt.visit, Stmt.visitWhile] at h
  obtain ⟨⟨l, s1⟩, h1, h⟩ := bind_ok.mp h
  simp only at h
  obtain ⟨n, hvs, S, hf⟩ := whileLoop_turns _ 0 s1 s' h
  have L : Stays s s1 := label_stays h1
  rw [L.1] at hf
  refine ⟨l, s1, n, h1, hvs, ?_, S.1.trans L.1⟩
  intro i hi
  refine ⟨?_, (hf i (Nat.zero_le _) (by omega)).2⟩
  have h0 := (hf i (Nat.zero_le _) (by omega)).1
  cases hh : s.frames.has (s.current ++ [⟨l, .while_, some (i : Int)⟩]) with
  | false => rfl
  | true => rw [L.2 _ hh] at h0; cases h0

/-- **C97**: no statement removes a scope, and each ends in the scope in which it started. -/
theorem C97_place (b : Stmt) (s s' : BV) (h : b.visit s = .ok s') :
    s'.current = s.current ∧ ∀ c, s.frames.has c = true → s'.frames.has c = true := visit_stays b s s' h

theorem static_unique {s : BV} {e : Ex} {v w : Int} (h1 : s.Static e v) (h2 : s.Static e w) : v = w := by
  obtain ⟨t, d, a1, a2, a3⟩ := h1
  obtain ⟨t', d', b1, b2, b3⟩ := h2
  rw [a1, ok_inj] at b1; subst b1
  rw [a2, ok_inj] at b2; subst b2
  rw [a3, ok_inj] at b3; exact b3

/-- **C97** fails for conditions with a negative value: they are true, but the body is not visited, for all loops. -/
theorem C97_fails_negative (pl pr c ql qr : Ex) (b : Stmt) (s s0 s1 s' : BV) (l : Str) (x : Int) (h0 : s.Assigns pl pr s0)
    (h1 : s0.label "for".toList = .ok (l, s1)) (hc : s1.Static c x) (hx : x < 0)
    (h : Stmt.visit (.fors pl pr c ql qr b) s = .ok s') : s' = s1 := by
  obtain ⟨l', v, t0, t1, vs, _, a0, a1, hf, _⟩ := C97_for_partial pl pr c ql qr b s s' h
  have e0 : t0 = s0 := by
    unfold BV.Assigns at h0 a0; rw [h0, ok_inj] at a0; exact a0.symm
  subst e0
  rw [h1, ok_inj] at a1
  cases a1
  cases hf with
  | stop => rfl
  | turn h2 h3 => have := static_unique hc h2; omega

/-! ### A loop -/

/-- The state of the module of C58 in an always block, with an integer `i`. -/
def c97s : BV :=
  let terms := Dict.set c58terms (c58n "i") ⟨c58n "i", [.integer], .intc ['3', '1'], .intc ['0'], none⟩
  let c := c58m ++ [⟨"always0".toList, .always, none⟩]
  { c58s with terms := terms, octx := ⟨terms, [], 32, fun _ => none⟩, current := c, loops := 10,
              frames := c58s.frames ++ [(c, { previous := c58m, isAlways := true, always := some {} })] }

/-- `for (i = 0; i < n; i = i + 1) x = i;` -/
def c97loop (n : String) : Stmt :=
  .fors (c58i "i") (.intc ['0']) (.bin .lessThan (c58i "i") (.intc n.toList)) (c58i "i") (.bin .plus (c58i "i") (.intc ['1']))
    (.ba (c58i "x") (c58i "i"))

/-- The scopes of a state, and the number of intermediate values. -/
def BV.report (s : BV) : List (Option Int) × Nat := (s.frames.filterMap (fun e => (e.1.getLast?).map (·.loop)), s.rename)

/-- Three turns, with the values 0, 1 and 2; none for the bound 0. -/
example : (match (c97loop "3").visit c97s with | .ok s => some s.report | .error _ => none) =
    some ([none, none, some 0, some 1, some 2], 7) := by decide +kernel

example : (match (c97loop "0").visit c97s with | .ok s => some s.report | .error _ => none) = some ([none, none], 1) := by decide +kernel

/-- `i = 0; while (i < 2) i = i + 1;` has two turns. -/
example : (match (Stmt.block none [.ba (c58i "i") (.intc ['0']), .whiles (.bin .lessThan (c58i "i") (.intc ['2']))
      (.ba (c58i "i") (.bin .plus (c58i "i") (.intc ['1'])))]).visit c97s with | .ok s => some s.report | .error _ => none) =
    some ([none, none, none, some 0, some 1], 3) := by decide +kernel

/-- The condition `0 - 1` has the static value -1, and the loop has no turn. -/
example : c97s.staticVal (.bin .minus (.intc ['0']) (.intc ['1'])) = .ok (-1) ∧
    (match (Stmt.fors (c58i "i") (.intc ['0']) (.bin .minus (.intc ['0']) (.intc ['1'])) (c58i "i") (.bin .plus (c58i "i") (.intc ['1']))
      (.ba (c58i "x") (c58i "i"))).visit c97s with | .ok s => some s.report | .error _ => none) = some ([none, none], 1) := by
  decide +kernel

/-- A loop that does not change its variable is an error. -/
example : (match (Stmt.fors (c58i "i") (.intc ['0']) (.bin .lessThan (c58i "i") (.intc ['2'])) (c58i "i") (c58i "i")
      (.ba (c58i "x") (c58i "i"))).visit c97s with | .ok _ => none | .error e => some e) = some .definition := by decide +kernel

end Pyv
