import Verif.Props.TreeTerms
import Verif.Props.MergeTotal
import Mathlib.Logic.Relation
/-
  C34: the signals left in a walked tree.
-/
namespace Pyv

open Relation (TransGen)

/-- SPECIFICATION: an input of the top module. -/
def MergeEnv.TopInput (S : MergeEnv) (n : ScopeChain) : Prop :=
  n.length = 2 ∧ ∃ t, S.terms.get? n = some t ∧ TermType.input ∈ t.types

/-- SPECIFICATION: a register (not a renamed one) all of whose assignments are in clocked always blocks. -/
def MergeEnv.ClockedReg (S : MergeEnv) (n : ScopeChain) : Prop :=
  ∃ t, S.terms.get? n = some t ∧ TermType.reg ∈ t.types ∧ TermType.rename ∉ t.types ∧
    ∀ bs, S.binds.get? n = some bs → ∀ b ∈ bs, ∃ a c, b.always = some a ∧ a.clockName = some c

variable {S : MergeEnv}

theorem termtype_ok {n : ScopeChain} {ty : List TermType} (h : S.termtype n = .ok ty) :
    ∃ t, S.terms.get? n = some t ∧ t.types = ty := by
  unfold MergeEnv.termtype at h
  split at h
  · exact absurd h (by simp)
  · rename_i t e; rw [ok_inj] at h; exact ⟨t, e, h⟩

theorem isCombination_false {b : Bind} : b.isCombination = false ↔ ∃ a c, b.always = some a ∧ a.clockName = some c := by
  unfold Bind.isCombination
  split
  · rename_i e; simp [e]
  · rename_i a e
    rw [e]
    cases hc : a.clockName with
    | none => simp [hc]
    | some c => simp [hc]

theorem clocked_iff {n : ScopeChain} {t : Term} (ht : S.terms.get? n = some t) : S.clocked n t.types = true ↔ S.ClockedReg n := by
  unfold MergeEnv.clocked MergeEnv.isCombination MergeEnv.bindlist MergeEnv.ClockedReg
  simp only [Bool.and_eq_true, Bool.not_eq_true', List.any_eq_false, List.contains_iff_mem,
    Bool.not_eq_true, isCombination_false]
  constructor
  · rintro ⟨⟨h1, h2⟩, h3⟩
    refine ⟨t, ht, h1, by simpa using h3, fun bs hbs b hb => h2 b ?_⟩
    rw [hbs]; exact hb
  · rintro ⟨t', ht', h1, h2, h3⟩
    rw [ht] at ht'; cases ht'
    refine ⟨⟨h1, fun b hb => ?_⟩, by simpa using h2⟩
    cases hg : S.binds.get? n with
    | none => rw [hg] at hb; simp at hb
    | some bs => rw [hg] at hb; exact h3 bs hg b hb

theorem topmodule_iff {n : ScopeChain} : isTopmodule (getScope n) = true ↔ n.length = 2 := by
  simp only [isTopmodule, getScope, List.length_dropLast, beq_iff_eq]; omega

theorem hasDims_true {n : ScopeChain} (h : S.hasDims n = .ok true) : S.IsArray n := by
  unfold MergeEnv.hasDims at h
  split at h
  · exact absurd h (by simp)
  · rename_i t e; rw [ok_inj] at h; exact ⟨t, e, h⟩

theorem hasDims_false {n : ScopeChain} (h : S.hasDims n = .ok false) : ¬ S.IsArray n := by
  unfold MergeEnv.hasDims at h
  split at h
  · exact absurd h (by simp)
  · rename_i t e
    rw [ok_inj] at h
    rintro ⟨t', e', h'⟩
    rw [e] at e'; cases e'; rw [h] at h'; cases h'

theorem walkIndex_ok {n : ScopeChain} {sel : Bool} {p : DF} {i : Option DF} (h : S.walkIndex n sel p = .ok i) :
    (i = none ∧ S.IsArray n ∧ p ≠ .none ∧ sel = true) ∨ (i = some p ∧ S.IsArray n ∧ p ≠ .none ∧ sel = false) ∨
      (i = some .none ∧ ¬ S.IsArray n) := by
  unfold MergeEnv.walkIndex at h
  simp only [bind_ok] at h
  obtain ⟨d, hd, h⟩ := h
  cases d with
  | false => simp only [Bool.false_eq_true, if_false, ok_inj] at h; exact .inr (.inr ⟨h.symm, hasDims_false hd⟩)
  | true =>
    simp only [if_true] at h
    split at h
    · exact absurd h (by simp)
    · rename_i hp
      split at h
      · rw [ok_inj] at h; exact .inl ⟨h.symm, hasDims_true hd, hp, ‹_›⟩
      · rename_i hs; rw [ok_inj] at h; exact .inr (.inl ⟨h.symm, hasDims_true hd, hp, by simpa using hs⟩)

theorem walkPsel_terms {o v m l r : DF} (h : S.walkPsel o v m l = .ok r) :
    ∀ x ∈ r.terms, x ∈ v.terms ∨ x ∈ m.terms ∨ x ∈ l.terms := by
  unfold MergeEnv.walkPsel at h
  split at h
  · simp only [bind_ok, ok_inj] at h
    obtain ⟨_, _, _, _, _, _, _, _, rfl⟩ := h
    intro x hx
    simp only [DF.terms, List.append_nil] at hx ⊢
    left; simp [hx]
  · rw [ok_inj] at h; subst h
    intro x hx
    simp only [DF.terms, List.mem_append] at hx
    tauto

theorem walkPtr_terms {o v p r : DF} (h : S.walkPtr o v p = .ok r) : ∀ x ∈ r.terms, x ∈ v.terms ∨ x ∈ p.terms := by
  unfold MergeEnv.walkPtr at h
  split at h
  · simp only [bind_ok, ok_inj] at h
    obtain ⟨_, _, rfl⟩ := h
    intro x hx
    split at hx
    · exact Or.inl hx
    · simpa only [DF.terms, List.mem_append] using hx
  · rw [ok_inj] at h; subst h
    intro x hx
    simpa only [DF.terms, List.mem_append] using hx

/-- The two ways a walk treats a signal: it is left, or its tree is walked. -/
theorem walk_term {k : Nat} {V : List ScopeChain} {step : Int} {sel : Bool} {p r : DF} {n : ScopeChain}
    (h : S.walk (k + 1) V step sel p (.term n) = .ok r) :
    (r = .term n ∧ (n ∈ V ∨ S.TopInput n ∨ S.IsArray n ∨ S.ClockedReg n ∧ step = 0)) ∨
    ∃ q t, n ∉ V ∧ ¬ S.TopInput n ∧ (q = p ∧ S.IsArray n ∨ q = .none ∧ ¬ S.IsArray n) ∧ S.getTree n q = .ok t ∧
      (S.ClockedReg n ∧ step ≠ 0 ∧ S.walk k (n :: V) (step - 1) false .none t = .ok r ∨
        ¬ S.ClockedReg n ∧ S.walk k (n :: V) step false .none t = .ok r) := by
  simp only [MergeEnv.walk] at h
  split at h
  · rw [ok_inj] at h; exact .inl ⟨h.symm, .inl ‹_›⟩
  rename_i hV
  simp only [bind_ok] at h
  obtain ⟨ty, hty, h⟩ := h
  obtain ⟨tm, htm, rfl⟩ := termtype_ok hty
  split at h
  · rename_i hin
    rw [ok_inj] at h
    simp only [Bool.and_eq_true, List.contains_iff_mem] at hin
    exact .inl ⟨h.symm, .inr (.inl ⟨topmodule_iff.mp hin.1, tm, htm, hin.2⟩)⟩
  rename_i hin
  have hin : ¬ S.TopInput n := by
    rintro ⟨hl, t', ht', hi⟩
    rw [htm] at ht'; cases ht'
    exact hin (by simp only [Bool.and_eq_true, List.contains_iff_mem]; exact ⟨topmodule_iff.mpr hl, hi⟩)
  simp only [bind_ok] at h
  obtain ⟨i, hi, h⟩ := h
  have hi := walkIndex_ok hi
  cases i with
  | none =>
    rw [ok_inj] at h
    rcases hi with hi | hi | hi
    · exact .inl ⟨h.symm, .inr (.inr (.inl hi.2.1))⟩
    · exact absurd hi.1 (by simp)
    · exact absurd hi.1 (by simp)
  | some q =>
    have hq : q = p ∧ S.IsArray n ∨ q = .none ∧ ¬ S.IsArray n := by
      rcases hi with hi | hi | hi
      · exact absurd hi.1 (by simp)
      · exact .inl ⟨Option.some.inj hi.1, hi.2.1⟩
      · exact .inr ⟨Option.some.inj hi.1, hi.2⟩
    dsimp only at h
    split at h
    · rename_i hc
      rw [ok_inj] at h
      exact .inl ⟨h.symm, .inr (.inr (.inr ⟨(clocked_iff htm).mp hc.1, hc.2⟩))⟩
    · rename_i hc
      simp only [bind_ok] at h
      obtain ⟨t, ht, h⟩ := h
      refine .inr ⟨q, t, hV, hin, hq, ht, ?_⟩
      by_cases hcl : S.clocked n tm.types = true
      · simp only [hcl, if_true] at h
        exact .inl ⟨(clocked_iff htm).mp hcl, fun e => hc ⟨hcl, e⟩, h⟩
      · simp only [hcl, if_false] at h
        exact .inr ⟨fun e => hcl ((clocked_iff htm).mpr e), h⟩

/-- Every signal being expanded leads to the given signals (or is an array). -/
def MergeEnv.Leads (S : MergeEnv) (V ts : List ScopeChain) : Prop := ∀ v ∈ V, S.IsArray v ∨ ∀ t ∈ ts, TransGen S.Dep v t

theorem Leads.mono {V ts ts' : List ScopeChain} (h : S.Leads V ts) (hs : ∀ x ∈ ts', x ∈ ts) : S.Leads V ts' :=
  fun v hv => (h v hv).imp id (fun h x hx => h x (hs x hx))

/-- The leaves of C34. -/
def MergeEnv.Leaf (S : MergeEnv) (y : ScopeChain) : Prop :=
  S.TopInput y ∨ S.ClockedReg y ∨ S.IsArray y ∨ TransGen S.Dep y y

theorem walk_leaves (hS : S.NoNewTerms) (k : Nat) : ∀ (V : List ScopeChain) (step : Int) (sel : Bool) (p t r : DF),
    S.walk k V step sel p t = .ok r → S.Leads V t.terms → S.Leads V p.terms →
      (∀ y ∈ r.terms, S.Leaf y) ∧ S.Leads V r.terms := by
  induction k with
  | zero => intro V step sel p t r h; simp [MergeEnv.walk] at h
  | succ k ih =>
    have ihL : ∀ (V : List ScopeChain) (step : Int) (ns rs : List DF), ns.mapM (S.walk k V step false .none) = .ok rs →
        S.Leads V (DF.termsList ns) → (∀ y ∈ DF.termsList rs, S.Leaf y) ∧ S.Leads V (DF.termsList rs) := by
      intro V step ns rs h hl
      have : ∀ r ∈ rs, (∀ y ∈ r.terms, S.Leaf y) ∧ S.Leads V r.terms := by
        rw [mapM_ok] at h
        intro r hr
        obtain ⟨n, hn, hw⟩ := forall₂_mem_right h r hr
        exact ih V step false .none n r hw (Leads.mono hl (fun x hx => DF.mem_termsList.mpr ⟨n, hn, hx⟩))
          (fun v _ => Or.inr (by simp [DF.terms]))
      refine ⟨fun y hy => ?_, fun v hv => ?_⟩
      · obtain ⟨n, hn, hy⟩ := DF.mem_termsList.mp hy
        exact (this n hn).1 y hy
      · by_cases ha : S.IsArray v
        · exact .inl ha
        · refine .inr (fun y hy => ?_)
          obtain ⟨n, hn, hy⟩ := DF.mem_termsList.mp hy
          exact ((this n hn).2 v hv).resolve_left ha y hy
    have comb : ∀ (V ts : List ScopeChain) (hv : ∀ x ∈ ts, ∃ us : List ScopeChain, x ∈ us ∧ (∀ y ∈ us, S.Leaf y) ∧ S.Leads V us),
        (∀ y ∈ ts, S.Leaf y) ∧ S.Leads V ts := by
      intro V ts hv
      refine ⟨fun y hy => ?_, fun v hvV => ?_⟩
      · obtain ⟨us, h1, h2, _⟩ := hv y hy; exact h2 y h1
      · by_cases ha : S.IsArray v
        · exact .inl ha
        · refine .inr (fun y hy => ?_)
          obtain ⟨us, h1, _, h3⟩ := hv y hy
          exact (h3 v hvV).resolve_left ha y h1
    have hnone : ∀ V, S.Leads V DF.none.terms := fun V v _ => Or.inr (by simp [DF.terms])
    intro V step sel p t r h ht hp
    cases t with
    | none | undef w | hiz w | intc s | fltc s | strc s | ev v w a b =>
      simp only [MergeEnv.walk, ok_inj] at h
      subst h
      exact ⟨by simp [DF.terms], fun v _ => Or.inr (by simp [DF.terms])⟩
    | delay n => simp [MergeEnv.walk] at h
    | sys s ns => simp [MergeEnv.walk] at h
    | op o ns =>
      simp only [MergeEnv.walk, bind_ok] at h
      obtain ⟨rs, hrs, h⟩ := h
      obtain ⟨rfl, -⟩ := DF.mkOp_ok h
      exact ihL V step ns rs hrs ht
    | concat ns =>
      simp only [MergeEnv.walk, bind_ok, ok_inj] at h
      obtain ⟨rs, hrs, rfl⟩ := h
      exact ihL V step ns rs hrs ht
    | branch c a b =>
      simp only [MergeEnv.walk, bind_ok, ok_inj] at h
      obtain ⟨c', hc, a', ha, b', hb, rfl⟩ := h
      have h1 := ih _ _ _ _ _ _ hc (Leads.mono ht (by simp [DF.terms]; tauto)) (hnone _)
      have h2 := ih _ _ _ _ _ _ ha (Leads.mono ht (by simp [DF.terms]; tauto)) (hnone _)
      have h3 := ih _ _ _ _ _ _ hb (Leads.mono ht (by simp [DF.terms]; tauto)) (hnone _)
      refine comb _ _ (fun x hx => ?_)
      simp only [DF.terms, List.mem_append] at hx
      rcases hx with (hx | hx) | hx
      exacts [⟨_, hx, h1⟩, ⟨_, hx, h2⟩, ⟨_, hx, h3⟩]
    | psel v m l =>
      simp only [MergeEnv.walk, bind_ok] at h
      obtain ⟨m', hm, l', hl, v', hv, h⟩ := h
      have h1 := ih _ _ _ _ _ _ hm (Leads.mono ht (by simp [DF.terms]; tauto)) (hnone _)
      have h2 := ih _ _ _ _ _ _ hl (Leads.mono ht (by simp [DF.terms]; tauto)) (hnone _)
      have h3 := ih _ _ _ _ _ _ hv (Leads.mono ht (by simp [DF.terms]; tauto)) (hnone _)
      refine comb _ _ (fun x hx => ?_)
      rcases walkPsel_terms h x hx with hx | hx | hx
      exacts [⟨_, hx, h3⟩, ⟨_, hx, h1⟩, ⟨_, hx, h2⟩]
    | ptr v q =>
      simp only [MergeEnv.walk, bind_ok] at h
      obtain ⟨q', hq, v', hv, h⟩ := h
      have h1 := ih _ _ _ _ _ _ hq (Leads.mono ht (by simp [DF.terms]; tauto)) (hnone _)
      have h2 := ih _ _ _ _ _ _ hv (Leads.mono ht (by simp [DF.terms]; tauto)) h1.2
      refine comb _ _ (fun x hx => ?_)
      rcases walkPtr_terms h x hx with hx | hx
      exacts [⟨_, hx, h2⟩, ⟨_, hx, h1⟩]
    | term n =>
      rcases walk_term h with ⟨rfl, hc⟩ | ⟨q, t, hV, hin, hq, hg, hw⟩
      · refine ⟨fun y hy => ?_, ht⟩
        simp only [DF.terms, List.mem_singleton] at hy
        subst hy
        rcases hc with hc | hc | hc | hc
        · rcases ht y hc with h | h
          · exact .inr (.inr (.inl h))
          · exact .inr (.inr (.inr (h y (by simp [DF.terms]))))
        · exact .inl hc
        · exact .inr (.inr (.inl hc))
        · exact .inr (.inl hc.1)
      · have hl : S.Leads (n :: V) t.terms := by
          intro v hv
          by_cases ha : S.IsArray v
          · exact .inl ha
          refine .inr (fun x hx => ?_)
          have hx := C53_tree_signals S hS n q t hg x hx
          rcases List.mem_cons.mp hv with e | hv
          · subst e
            rcases hx with hx | hx
            · exact .single hx
            · exact absurd hx.1 ha
          · have hn := (ht v hv).resolve_left ha n (by simp [DF.terms])
            rcases hx with hx | ⟨hx, rfl | hx'⟩
            · exact .tail hn hx
            · exact hn
            · rcases hq with ⟨rfl, _⟩ | ⟨rfl, _⟩
              · exact (hp v hv).resolve_left ha x hx'
              · simp [DF.terms] at hx'
        have : (∀ y ∈ r.terms, S.Leaf y) ∧ S.Leads (n :: V) r.terms := by
          rcases hw with ⟨_, _, hw⟩ | ⟨_, hw⟩
          · exact ih _ _ _ _ _ _ hw hl (hnone _)
          · exact ih _ _ _ _ _ _ hw hl (hnone _)
        exact ⟨this.1, fun v hv => this.2 v (by simp [hv])⟩

/-- **C34**: every signal left in the tree returned by `walkBind(x, step)` is `x` itself, an input of the top module, a
register assigned under a clock only, an array, or part of a feedback (it depends on itself). -/
theorem C34_leaves (S : MergeEnv) (hS : S.NoNewTerms) (k : Nat) (x : ScopeChain) (step : Int) (t : DF)
    (h : S.walkBind k x step = .ok t) (y : ScopeChain) (hy : y ∈ t.terms) :
    y = x ∨ S.TopInput y ∨ S.ClockedReg y ∨ S.IsArray y ∨ TransGen S.Dep y y := by
  unfold MergeEnv.walkBind at h
  simp only [bind_ok] at h
  obtain ⟨_, _, g, hg, w, hw, h⟩ := h
  rcases C17_replace_terms x w t h y hy with hy | hy
  · exact .inr ((walk_leaves hS k [] step false .none g w hw (by simp [MergeEnv.Leads]) (by simp [MergeEnv.Leads])).1 y hy)
  · exact .inl hy

/-- **C34** (completeness): the tree returned by `walkBind` has no undefined value and no missing side: where nothing is
assigned, the signal itself is written (its old value is kept). -/
theorem C34_complete (S : MergeEnv) (k : Nat) (x : ScopeChain) (step : Int) (t : DF) (h : S.walkBind k x step = .ok t) :
    Complete t := by
  unfold MergeEnv.walkBind at h
  simp only [bind_ok] at h
  obtain ⟨_, _, g, hg, w, hw, h⟩ := h
  exact C17_replace_complete x w t h

/-! ### Counting registers -/

/-- SPECIFICATION: `Path a b c`: `b` is reached from `a` along assignments, through `c` clocked registers (not counting
`a` and `b`). -/
inductive MergeEnv.Path (S : MergeEnv) : ScopeChain → ScopeChain → Nat → Prop where
  | one {a b} : S.Dep a b → Path S a b 0
  | comb {a b d c} : Path S a b c → ¬ S.ClockedReg b → S.Dep b d → Path S a d c
  | reg {a b d c} : Path S a b c → S.ClockedReg b → S.Dep b d → Path S a d (c + 1)

/-- No signal is an array. -/
def MergeEnv.NoArrays (S : MergeEnv) : Prop := ∀ n, ¬ S.IsArray n

theorem walk_steps (hS : S.NoNewTerms) (hA : S.NoArrays) (x : ScopeChain) (k : Nat) : ∀ (V : List ScopeChain) (c s : Nat)
    (sel : Bool) (p t r : DF), S.walk k V (s : Int) sel p t = .ok r → (∀ y ∈ t.terms, S.Path x y c) →
      (∀ v ∈ V, ∀ y ∈ t.terms, TransGen S.Dep v y) →
      ∀ y ∈ r.terms, ∃ d, S.Path x y d ∧ c ≤ d ∧ d ≤ c + s ∧
        (S.TopInput y ∨ TransGen S.Dep y y ∨ S.ClockedReg y ∧ d = c + s) := by
  induction k with
  | zero => intro V c s sel p t r h; simp [MergeEnv.walk] at h
  | succ k ih =>
    have ihL : ∀ (V : List ScopeChain) (c s : Nat) (ns rs : List DF), ns.mapM (S.walk k V (s : Int) false .none) = .ok rs →
        (∀ y ∈ DF.termsList ns, S.Path x y c) → (∀ v ∈ V, ∀ y ∈ DF.termsList ns, TransGen S.Dep v y) →
        ∀ y ∈ DF.termsList rs, ∃ d, S.Path x y d ∧ c ≤ d ∧ d ≤ c + s ∧
          (S.TopInput y ∨ TransGen S.Dep y y ∨ S.ClockedReg y ∧ d = c + s) := by
      intro V c s ns rs h hp hv y hy
      obtain ⟨r, hr, hy⟩ := DF.mem_termsList.mp hy
      rw [mapM_ok] at h
      obtain ⟨n, hn, hw⟩ := forall₂_mem_right h r hr
      exact ih V c s false .none n r hw (fun z hz => hp z (DF.mem_termsList.mpr ⟨n, hn, hz⟩))
        (fun v h z hz => hv v h z (DF.mem_termsList.mpr ⟨n, hn, hz⟩)) y hy
    intro V c s sel p t r h hp hv
    cases t with
    | none | undef w | hiz w | intc s | fltc s | strc s | ev v w a b =>
      simp only [MergeEnv.walk, ok_inj] at h
      subst h
      simp [DF.terms]
    | delay n => simp [MergeEnv.walk] at h
    | sys s ns => simp [MergeEnv.walk] at h
    | op o ns =>
      simp only [MergeEnv.walk, bind_ok] at h
      obtain ⟨rs, hrs, h⟩ := h
      obtain ⟨rfl, -⟩ := DF.mkOp_ok h
      exact ihL V c s ns rs hrs hp hv
    | concat ns =>
      simp only [MergeEnv.walk, bind_ok, ok_inj] at h
      obtain ⟨rs, hrs, rfl⟩ := h
      exact ihL V c s ns rs hrs hp hv
    | branch q a b =>
      simp only [DF.terms, List.mem_append] at hp hv
      simp only [MergeEnv.walk, bind_ok, ok_inj] at h
      obtain ⟨c', hc, a', ha, b', hb, rfl⟩ := h
      intro y hy
      simp only [DF.terms, List.mem_append] at hy
      rcases hy with (hy | hy) | hy
      · exact ih _ _ _ _ _ _ _ hc (fun z hz => hp z (by tauto)) (fun v h z hz => hv v h z (by tauto)) y hy
      · exact ih _ _ _ _ _ _ _ ha (fun z hz => hp z (by tauto)) (fun v h z hz => hv v h z (by tauto)) y hy
      · exact ih _ _ _ _ _ _ _ hb (fun z hz => hp z (by tauto)) (fun v h z hz => hv v h z (by tauto)) y hy
    | psel q m l =>
      simp only [DF.terms, List.mem_append] at hp hv
      simp only [MergeEnv.walk, bind_ok] at h
      obtain ⟨m', hm, l', hl, v', hq, h⟩ := h
      intro y hy
      rcases walkPsel_terms h y hy with hy | hy | hy
      · exact ih _ _ _ _ _ _ _ hq (fun z hz => hp z (by tauto)) (fun v h z hz => hv v h z (by tauto)) y hy
      · exact ih _ _ _ _ _ _ _ hm (fun z hz => hp z (by tauto)) (fun v h z hz => hv v h z (by tauto)) y hy
      · exact ih _ _ _ _ _ _ _ hl (fun z hz => hp z (by tauto)) (fun v h z hz => hv v h z (by tauto)) y hy
    | ptr q i =>
      simp only [DF.terms, List.mem_append] at hp hv
      simp only [MergeEnv.walk, bind_ok] at h
      obtain ⟨i', hi, v', hq, h⟩ := h
      intro y hy
      rcases walkPtr_terms h y hy with hy | hy
      · exact ih _ _ _ _ _ _ _ hq (fun z hz => hp z (by tauto)) (fun v h z hz => hv v h z (by tauto)) y hy
      · exact ih _ _ _ _ _ _ _ hi (fun z hz => hp z (by tauto)) (fun v h z hz => hv v h z (by tauto)) y hy
    | term n =>
      have hn := hp n (by simp [DF.terms])
      have hvn : ∀ v ∈ V, TransGen S.Dep v n := fun v h => hv v h n (by simp [DF.terms])
      rcases walk_term h with ⟨rfl, hc⟩ | ⟨q, t, hV, hin, hq, hg, hw⟩
      · intro y hy
        simp only [DF.terms, List.mem_singleton] at hy
        subst hy
        rcases hc with hc | hc | hc | ⟨hc, hs⟩
        · exact ⟨c, hn, le_refl _, by omega, .inr (.inl (hvn _ hc))⟩
        · exact ⟨c, hn, le_refl _, by omega, .inl hc⟩
        · exact absurd hc (hA _)
        · exact ⟨c, hn, le_refl _, by omega, .inr (.inr ⟨hc, by omega⟩)⟩
      · have hd : ∀ z ∈ t.terms, S.Dep n z := fun z hz => by
          rcases C53_tree_signals S hS n q t hg z hz with h | h
          · exact h
          · exact absurd h.1 (hA _)
        have hv' : ∀ v ∈ n :: V, ∀ z ∈ t.terms, TransGen S.Dep v z := by
          intro v h z hz
          rcases List.mem_cons.mp h with e | h
          · rw [e]; exact .single (hd z hz)
          · exact .tail (hvn v h) (hd z hz)
        rcases hw with ⟨hc, hs, hw⟩ | ⟨hc, hw⟩
        · obtain ⟨s', rfl⟩ : ∃ s', s = s' + 1 := ⟨s - 1, by omega⟩
          rw [show ((s' + 1 : Nat) : Int) - 1 = (s' : Int) by omega] at hw
          intro y hy
          obtain ⟨d, h1, h2, h3, h4⟩ := ih _ (c + 1) s' _ _ _ _ hw (fun z hz => .reg hn hc (hd z hz)) hv' y hy
          exact ⟨d, h1, by omega, by omega, h4.imp id (Or.imp id (fun h => ⟨h.1, by omega⟩))⟩
        · exact ih _ c s _ _ _ _ hw (fun z hz => .comb hn hc (hd z hz)) hv'

/-- **C54**: in a design without arrays, every signal left in the tree returned by `walkBind(x, step)` is `x` itself, or
is reached from `x` through at most `step` clocked registers; unless it is an input of the top module or part of a
feedback, it is a clocked register reached through exactly `step` clocked registers. -/
theorem C54_step_limit_partial (S : MergeEnv) (hS : S.NoNewTerms) (hA : S.NoArrays) (k : Nat) (x : ScopeChain) (step : Nat) (t : DF)
    (h : S.walkBind k x step = .ok t) (y : ScopeChain) (hy : y ∈ t.terms) :
    y = x ∨ ∃ d, d ≤ step ∧ S.Path x y d ∧ (S.TopInput y ∨ TransGen S.Dep y y ∨ S.ClockedReg y ∧ d = step) := by
  unfold MergeEnv.walkBind at h
  simp only [bind_ok] at h
  obtain ⟨_, _, g, hg, w, hw, h⟩ := h
  rcases C17_replace_terms x w t h y hy with hy | hy
  · have hd : ∀ z ∈ g.terms, S.Path x z 0 := fun z hz => by
      rcases C53_tree_signals S hS x .none g hg z hz with h | h
      · exact .one h
      · exact absurd h.1 (hA _)
    obtain ⟨d, h1, -, h2, h3⟩ := walk_steps hS hA x k [] 0 step false .none g w hw hd (by simp) y hy
    exact .inr ⟨d, by omega, h1, by simpa using h3⟩
  · exact .inl hy

/-! ### witnesses -/

/-- Non-vacuity of C34: `z = r; r <= r ^ z` walked from `z` with one step leaves `r`, which is a clocked register. -/
example : (mergeEnvOf c33ctx 20 1 c33binds c33binds).NoNewTerms ∧
    (mergeEnvOf c33ctx 20 1 c33binds c33binds).walkBind 20 (c33n 'x') 0 =
      .ok (.op .and [.op .or [.op .and [.term (c33n 'y'), .term (c33n 'a')], .term (c33n 'r')], .term (c33n 'a')]) :=
  ⟨noNewTerms_real _ _ _ _ _, by decide +kernel⟩

theorem c33noArrays : (mergeEnvOf c33ctx 20 1 c33binds c33binds).NoArrays := by
  rintro n ⟨t, ht, hd⟩
  have : ∀ p ∈ c33terms, p.2.dims.isSome = false := by decide
  have hm : (n, t) ∈ c33terms := Dict.mem_of_get? ht
  rw [this _ hm] at hd
  cases hd

/-- `assign z = q; always @(posedge k) q <= p + a; always @(posedge k) p <= o`. -/
def c54binds : Dict ScopeChain (List Bind) :=
  [c33b 'z' (.term (c33n 'q')) none,
   c33b 'q' (.op .plus [.term (c33n 'p'), .term (c33n 'a')]) c33clk,
   c33b 'p' (.term (c33n 'o')) c33clk]
def c54terms : Dict ScopeChain Term := [c33t 'z' [.wire], c33t 'q' [.reg], c33t 'p' [.reg], c33t 'a' [.input], c33t 'o' [.reg]]
def c54ctx : OptCtx := ⟨c54terms, [], 32, fun _ => none⟩

/-- Non-vacuity of C54: the number of steps decides how many registers are replaced by their inputs. -/
example : (mergeEnvOf c54ctx 20 1 c54binds c54binds).NoNewTerms ∧ (mergeEnvOf c54ctx 20 1 c54binds c54binds).NoArrays ∧
    (mergeEnvOf c54ctx 20 1 c54binds c54binds).walkBind 20 (c33n 'z') (0 : Nat) = .ok (.term (c33n 'q')) ∧
    (mergeEnvOf c54ctx 20 1 c54binds c54binds).walkBind 20 (c33n 'z') (1 : Nat) =
      .ok (.op .plus [.term (c33n 'p'), .term (c33n 'a')]) ∧
    (mergeEnvOf c54ctx 20 1 c54binds c54binds).walkBind 20 (c33n 'z') (2 : Nat) =
      .ok (.op .plus [.term (c33n 'o'), .term (c33n 'a')]) := by
  refine ⟨noNewTerms_real _ _ _ _ _, ?_, by decide +kernel, by decide +kernel, by decide +kernel⟩
  rintro n ⟨t, ht, hd⟩
  have : ∀ p ∈ c54terms, p.2.dims.isSome = false := by decide
  have hm : (n, t) ∈ c54terms := Dict.mem_of_get? ht
  rw [this _ hm] at hd
  cases hd

/-- `assign x = w[i]; assign w[0] = a; assign w[1] = b; always @(posedge k) begin i <= j; j <= h; end`. -/
def c54abinds : Dict ScopeChain (List Bind) :=
  [c33b 'x' (.ptr (.term (c33n 'w')) (.term (c33n 'i'))) none,
   (c33n 'w', [{ tree := .term (c33n 'a'), dest := c33n 'w', msb := .none, lsb := .none, ptr := .intc ['0'], always := none },
               { tree := .term (c33n 'b'), dest := c33n 'w', msb := .none, lsb := .none, ptr := .intc ['1'], always := none }]),
   c33b 'i' (.term (c33n 'j')) c33clk,
   c33b 'j' (.term (c33n 'h')) c33clk]
def c54aterms : Dict ScopeChain Term :=
  [c33t 'x' [.wire], (c33n 'w', ⟨c33n 'w', [.wire], .intc ['3'], .intc ['0'], some [(.intc ['0'], .intc ['1'])]⟩),
   c33t 'i' [.reg], c33t 'j' [.reg], c33t 'h' [.reg], c33t 'a' [.input], c33t 'b' [.input]]
def c54actx : OptCtx := ⟨c54aterms, [], 32, fun _ => none⟩
def c54aenv : MergeEnv := mergeEnvOf c54actx 20 1 c54abinds c54abinds

theorem c54a_dep {a b : ScopeChain} (h : c54aenv.Dep a b) :
    (a = c33n 'x' ∧ (b = c33n 'w' ∨ b = c33n 'i')) ∨ (a = c33n 'w' ∧ (b = c33n 'a' ∨ b = c33n 'b')) ∨
      (a = c33n 'i' ∧ b = c33n 'j') ∨ (a = c33n 'j' ∧ b = c33n 'h') := by
  obtain ⟨bs, hb, x, hx, hy⟩ := h
  have hm : (a, bs) ∈ c54abinds := Dict.mem_of_get? hb
  simp only [c54abinds, c33b, List.mem_cons, List.not_mem_nil, or_false, Prod.mk.injEq] at hm
  rcases hm with ⟨rfl, rfl⟩ | ⟨rfl, rfl⟩ | ⟨rfl, rfl⟩ | ⟨rfl, rfl⟩ <;>
    simp only [List.mem_cons, List.not_mem_nil, or_false] at hx
  · subst hx; simp only [DF.terms, List.mem_append, List.mem_singleton] at hy; tauto
  · rcases hx with rfl | rfl <;> (simp only [DF.terms, List.mem_singleton] at hy; tauto)
  · subst hx; simp only [DF.terms, List.mem_singleton] at hy; tauto
  · subst hx; simp only [DF.terms, List.mem_singleton] at hy; tauto

theorem c54a_clocked : c54aenv.ClockedReg (c33n 'i') ∧ c54aenv.ClockedReg (c33n 'j') :=
  ⟨(clocked_iff (t := (c33t 'i' [.reg]).2) rfl).mp (by decide), (clocked_iff (t := (c33t 'j' [.reg]).2) rfl).mp (by decide)⟩

theorem c54a_path {y : ScopeChain} {d : Nat} (h : c54aenv.Path (c33n 'x') y d) :
    y = c33n 'w' ∨ y = c33n 'i' ∨ y = c33n 'a' ∨ y = c33n 'b' ∨ (y = c33n 'j' ∧ 1 ≤ d) ∨ (y = c33n 'h' ∧ 2 ≤ d) := by
  have ne : ∀ c d : Char, c33n c = c33n d ↔ c = d := by intro c d; simp [c33n]
  induction h with
  | one h => rcases c54a_dep h with h | h | h | h <;> simp only [ne] at h <;> simp_all <;> tauto
  | comb _ hc hd ih =>
    have c := c54a_clocked
    rcases c54a_dep hd with ⟨rfl, h⟩ | ⟨rfl, h⟩ | ⟨rfl, h⟩ | ⟨rfl, h⟩
    · rcases h with h | h <;> simp [h]
    · rcases h with h | h <;> simp [h]
    · exact absurd c.1 hc
    · exact absurd c.2 hc
  | reg _ hc hd ih =>
    rcases c54a_dep hd with ⟨rfl, h⟩ | ⟨rfl, h⟩ | ⟨rfl, h⟩ | ⟨rfl, h⟩
    · rcases h with h | h <;> simp [h]
    · rcases h with h | h <;> simp [h]
    · simp [h]
    · simp [ne] at ih; simp [h]; omega

/-- The full statement of C54 (without the restriction on arrays) is FALSE: `assign x = w[i]` where `w` is an array of
wires and `i <= j`, `j <= h` under a clock.  The index of `w[i]` is walked twice: `walkBind(x, step=1)` crosses two
registers, and selects the element of `w` by `h`, the value of `i` two cycles later, not one. -/
theorem C54_index_false : ∃ t, c54aenv.walkBind 20 (c33n 'x') 1 = .ok t ∧ c54aenv.NoNewTerms ∧
    c33n 'h' ∈ t.terms ∧ ∀ d, c54aenv.Path (c33n 'x') (c33n 'h') d → 1 < d := by
  have hw : c54aenv.walkBind 20 (c33n 'x') 1 = .ok (.branch (.op .eq [.ev (.int 1) (some 32) false false, .term (c33n 'h')])
    (.term (c33n 'b')) (.branch (.op .eq [.ev (.int 0) (some 32) false false, .term (c33n 'h')])
      (.term (c33n 'a')) (.term (c33n 'x')))) := by decide +kernel
  refine ⟨_, hw, noNewTerms_real _ _ _ _ _, by decide, fun d h => ?_⟩
  rcases c54a_path h with h | h | h | h | h | h
  all_goals first | exact h.2 | exact absurd h (by decide) | exact absurd h.1 (by decide)

/-- Non-vacuity of C53: an assignment, and an array element selected by a signal. -/
example : c54aenv.NoNewTerms ∧
    c54aenv.getTree (c33n 'x') .none = .ok (.ptr (.term (c33n 'w')) (.term (c33n 'i'))) ∧
    c54aenv.getTree (c33n 'w') (.term (c33n 'j')) =
      .ok (.branch (.op .eq [.ev (.int 1) (some 32) false false, .term (c33n 'j')]) (.term (c33n 'b'))
        (.branch (.op .eq [.ev (.int 0) (some 32) false false, .term (c33n 'j')]) (.term (c33n 'a')) .none)) :=
  ⟨noNewTerms_real _ _ _ _ _, by decide +kernel, by decide +kernel⟩

end Pyv
