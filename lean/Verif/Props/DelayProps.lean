import Verif.Props.FsmReset
/-
  C69: registers that copy another register.
-/
namespace Pyv

/-! ### Specification -/

/-- The functions of a register, without its reset conditions. -/
def FunctionsOf (isReset : DF → Bool) (info : TermInfo) (name : ScopeChain) (fd : FuncDict) : Prop :=
  ∃ t fd0, info.tree name = .ok t ∧ split t = .ok fd0 ∧ fd = removeResetCondition isReset fd0

/-- A register that is clocked and not a renamed term. -/
def ClockedTerm (info : TermInfo) (name : ScopeChain) : Prop := info.isRename name = .ok false ∧ info.isClock name = .ok true

/-- Register `name` does nothing but take over the value of `src` (apart from its reset). -/
def Copies (isReset : DF → Bool) (info : TermInfo) (name src : ScopeChain) : Prop :=
  ClockedTerm info name ∧ FunctionsOf isReset info name [([], .term src)]

/-- `name` copies, over `k` registers, the register `src`. -/
inductive CopyChain (isReset : DF → Bool) (info : TermInfo) : ScopeChain → Nat → ScopeChain → Prop
  | here (name) : CopyChain isReset info name 0 name
  | step (name mid src k) : Copies isReset info name mid → CopyChain isReset info mid k src →
      CopyChain isReset info name (k + 1) src

/-! ### C69 -/

/-- One call. -/
theorem getFuncdict_step {isReset : DF → Bool} {info : TermInfo} {fuel : Nat} {name : ScopeChain} {cnt : Nat}
    {r : FuncDict × Nat} (h : getFuncdict isReset info (fuel + 1) name cnt = .ok r) :
    ((info.isClock name = .ok false ∨ info.isRename name = .ok true) ∧ r = ([], 0)) ∨
    ((ClockedTerm info name ∧ FunctionsOf isReset info name r.1 ∧ (∀ n, r.1 ≠ [([], .term n)]) ∧ r.2 = cnt) ∨
      ∃ n, Copies isReset info name n ∧ getFuncdict isReset info fuel n (cnt + 1) = .ok r) := by
  simp only [getFuncdict, bind_ok] at h
  obtain ⟨ren, hren, clk, hclk, h⟩ := h
  cases clk with
  | false => simp at h; exact .inl ⟨.inl hclk, h.symm⟩
  | true =>
    cases ren with
    | true => simp at h; exact .inl ⟨.inr hren, h.symm⟩
    | false =>
      simp only [Bool.true_eq_false, if_false, Bool.false_eq_true, bind_ok] at h
      obtain ⟨t, ht, fd, hfd, h⟩ := h
      right
      split at h
      · rename_i n he
        exact .inr ⟨n, ⟨⟨hren, hclk⟩, t, fd, ht, hfd, he.symm⟩, h⟩
      · rename_i hne
        simp only [ok_inj] at h; subst h
        exact .inl ⟨⟨hren, hclk⟩, ⟨t, fd, ht, hfd, rfl⟩, fun n e => hne n e, rfl⟩

/-- **C69** The functions reported for a register are those of the register at the end of the chain of copies that
starts at it, and the delay reported is the length of the chain; nothing is reported when the chain leads to a term
that is not clocked or is a renamed one. -/
theorem C69_delay (isReset : DF → Bool) (info : TermInfo) (fuel : Nat) (name : ScopeChain) (fd : FuncDict) (n : Nat)
    (h : getFuncdict isReset info fuel name 0 = .ok (fd, n)) :
    ∃ k src, CopyChain isReset info name k src ∧
      (((info.isClock src = .ok false ∨ info.isRename src = .ok true) ∧ fd = [] ∧ n = 0) ∨
        (ClockedTerm info src ∧ FunctionsOf isReset info src fd ∧ (∀ m, fd ≠ [([], .term m)]) ∧ n = k)) := by
  have gen : ∀ fuel name cnt, getFuncdict isReset info fuel name cnt = .ok (fd, n) →
      ∃ k src, CopyChain isReset info name k src ∧
      (((info.isClock src = .ok false ∨ info.isRename src = .ok true) ∧ fd = [] ∧ n = 0) ∨
        (ClockedTerm info src ∧ FunctionsOf isReset info src fd ∧ (∀ m, fd ≠ [([], .term m)]) ∧ n = cnt + k)) := by
    intro fuel
    induction fuel with
    | zero => intro name cnt h; simp [getFuncdict] at h
    | succ fuel ih =>
      intro name cnt h
      rcases getFuncdict_step h with ⟨h1, h2⟩ | ⟨h1, h2, h3, h4⟩ | ⟨m, h1, h2⟩
      · simp at h2
        exact ⟨0, name, .here name, .inl ⟨h1, h2⟩⟩
      · exact ⟨0, name, .here name, .inr ⟨h1, h2, h3, by simpa using h4⟩⟩
      · obtain ⟨k, src, hc, hr⟩ := ih m (cnt + 1) h2
        refine ⟨k + 1, src, .step _ _ _ _ h1 hc, ?_⟩
        rcases hr with hr | ⟨r1, r2, r3, r4⟩
        · exact .inl hr
        · exact .inr ⟨r1, r2, r3, by omega⟩
  obtain ⟨k, src, hc, hr⟩ := gen fuel name 0 h
  exact ⟨k, src, hc, by simpa using hr⟩

theorem getFuncdict_copies {isReset : DF → Bool} {info : TermInfo} {name src : ScopeChain}
    (h : Copies isReset info name src) (fuel cnt : Nat) :
    getFuncdict isReset info (fuel + 1) name cnt = getFuncdict isReset info fuel src (cnt + 1) := by
  obtain ⟨⟨h1, h2⟩, t, fd, ht, hfd, e⟩ := h
  simp only [getFuncdict, h1, h2, ok_bind, Bool.true_eq_false, if_false, Bool.false_eq_true, ht, hfd, ← e]

/-- **C69** A chain that ends is followed to its end, whatever its length. -/
theorem C69_delay_found (isReset : DF → Bool) (info : TermInfo) (name src : ScopeChain) (k : Nat) (fd : FuncDict)
    (hc : CopyChain isReset info name k src) (hs : ClockedTerm info src) (hf : FunctionsOf isReset info src fd)
    (hne : ∀ m, fd ≠ [([], .term m)]) (fuel : Nat) (hfuel : k < fuel) (cnt : Nat) :
    getFuncdict isReset info fuel name cnt = .ok (fd, cnt + k) := by
  induction hc generalizing fuel cnt with
  | here name =>
    obtain ⟨fuel, rfl⟩ : ∃ f, fuel = f + 1 := ⟨fuel - 1, by omega⟩
    obtain ⟨h1, h2⟩ := hs
    obtain ⟨t, fd0, ht, hfd, rfl⟩ := hf
    simp only [getFuncdict, h1, h2, ok_bind, Bool.true_eq_false, if_false, Bool.false_eq_true, ht, hfd]
    rfl
  | step name mid src k h1 _ ih =>
    obtain ⟨fuel, rfl⟩ : ∃ f, fuel = f + 1 := ⟨fuel - 1, by omega⟩
    rw [getFuncdict_copies h1, ih hs hf fuel (by omega) (cnt + 1)]
    congr 2; omega

/-- **C69** (a defect) Registers that copy each other in a circle, or a register that keeps its own value, make
`getFuncdict` recurse until Python gives up, at whatever depth. -/
theorem C69_circle_raises (isReset : DF → Bool) (info : TermInfo) (P : ScopeChain → Prop)
    (h : ∀ n, P n → ∃ m, P m ∧ Copies isReset info n m) (name : ScopeChain) (hp : P name) (fuel cnt : Nat) :
    getFuncdict isReset info fuel name cnt = .error .recursion := by
  induction fuel generalizing name cnt with
  | zero => rfl
  | succ fuel ih =>
    obtain ⟨m, hm, hc⟩ := h name hp
    rw [getFuncdict_copies hc]
    exact ih m hm _

/-! ### Concrete cases -/

def c69a : ScopeChain := [⟨['a'], .signal, none⟩]
def c69b : ScopeChain := [⟨['b'], .signal, none⟩]
def c69rst : DF := .term [⟨['r', 's', 't'], .signal, none⟩]
def c69reset (c : DF) : Bool := decide (c = c69rst) || decide (c = .op .ulnot [c69rst])
/-- `a <= rst ? 0 : b; b <= (b == 1) ? 2 : 1`. -/
def c69info : TermInfo := ⟨fun _ => .ok false, fun _ => .ok true, fun n =>
  if n = c69a then .ok (.branch c69rst (.evi 0 (some 32)) (.term c69b))
  else .ok (.branch (.op .eq [.term c69b, .evi 1 (some 32)]) (.evi 2 (some 32)) (.evi 1 (some 32)))⟩
/-- `a <= rst ? 0 : a`. -/
def c69self : TermInfo := ⟨fun _ => .ok false, fun _ => .ok true, fun _ =>
  .ok (.branch c69rst (.evi 0 (some 32)) (.term c69a))⟩

theorem c69_copies : Copies c69reset c69info c69a c69b :=
  ⟨⟨rfl, rfl⟩, .branch c69rst (.evi 0 (some 32)) (.term c69b), [([c69rst], .evi 0 (some 32)), ([.op .ulnot [c69rst]], .term c69b)],
    by decide +kernel, by decide +kernel, by decide +kernel⟩
example : CopyChain c69reset c69info c69a 1 c69b := .step _ _ _ _ c69_copies (.here _)
example : getFuncdict c69reset c69info 1000 c69a 0 = .ok ([([.op .eq [.term c69b, .evi 1 (some 32)]], .evi 2 (some 32)),
    ([.op .ulnot [.op .eq [.term c69b, .evi 1 (some 32)]]], .evi 1 (some 32))], 1) := by decide +kernel
example : ∀ n, n = c69a → ∃ m, m = c69a ∧ Copies c69reset c69self n m := by
  rintro n rfl
  exact ⟨c69a, rfl, ⟨rfl, rfl⟩, .branch c69rst (.evi 0 (some 32)) (.term c69a),
    [([c69rst], .evi 0 (some 32)), ([.op .ulnot [c69rst]], .term c69a)], rfl, by decide +kernel, by decide +kernel⟩
end Pyv
