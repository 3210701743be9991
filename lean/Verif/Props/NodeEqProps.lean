import Verif.NodeEq
import Verif.Props.ScopeProps
/-
  C100: comparison and hashing of dataflow nodes.
-/
namespace Pyv

/-! ### Specification -/

mutual
/-- All names in the tree are those of declared signals (no scope of type `any`), and the tree contains no DFDelay. -/
def DF.Settled : DF → Prop
  | .term n => ScopeChain.Concrete n
  | .op _ ns => DF.Settleds ns
  | .psel v m l => v.Settled ∧ m.Settled ∧ l.Settled
  | .ptr v p => v.Settled ∧ p.Settled
  | .concat ns => DF.Settleds ns
  | .branch c t f => c.Settled ∧ t.Settled ∧ f.Settled
  | .delay _ => False
  | .sys _ ns => DF.Settleds ns
  | _ => True
/-- For lists of trees. -/
def DF.Settleds : List DF → Prop
  | [] => True
  | n :: ns => n.Settled ∧ DF.Settleds ns
end

/-! ### Proofs -/

theorem okBind {α β : Type} (a : α) (f : α → Py β) : (Except.ok a >>= f) = f a := rfl
theorem andThen_ok (a b : Bool) : andThen (.ok a) (.ok b) = .ok (a && b) := by cases a <;> rfl
theorem andThen_false (x : Py Bool) : andThen (.ok false) x = .ok false := rfl
theorem andThen_true (x : Py Bool) : andThen (.ok true) x = x := rfl
theorem andThen_yes {x y : Py Bool} : andThen x y = .ok true ↔ x = .ok true ∧ y = .ok true := by
  cases x with
  | error e => simp [andThen]; intro h; cases h
  | ok a => cases a <;> simp [andThen_false, andThen_true]

theorem pyEqs_exact {ns : List DF} (ih : ∀ n ∈ ns, ∀ b : DF, n.Settled → b.Settled → n.pyEq b = .ok (decide (n = b))) :
    ∀ ms : List DF, DF.Settleds ns → DF.Settleds ms → DF.pyEqs ns ms = .ok (decide (ns = ms)) := by
  induction ns with
  | nil => intro ms _ _; cases ms <;> simp [DF.pyEqs]
  | cons n ns h =>
    intro ms h1 h2
    cases ms with
    | nil => simp [DF.pyEqs]
    | cons m ms =>
      obtain ⟨a1, a2⟩ := h1
      obtain ⟨b1, b2⟩ := h2
      rw [DF.pyEqs, ih n (List.mem_cons_self ..) m a1 b1, h (fun x hx => ih x (List.mem_cons_of_mem _ hx)) ms a2 b2, andThen_ok]
      simp [Bool.decide_and]

/-- **C100** Nodes of an analysed design compare equal exactly when they are the same tree; comparison does not fail.  Missing: DFDelay,
names given by the user. -/
theorem C100_same_partial (a b : DF) (ha : a.Settled) (hb : b.Settled) : a.pyEq b = .ok (decide (a = b)) := by
  induction a using DF.ind generalizing b with
  | none => cases b <;> simp [DF.pyEq]
  | term n =>
    cases b <;> simp [DF.pyEq]
    rename_i m
    rw [Bool.eq_iff_iff, C02_eq_concrete n m ha hb]
    simp
  | intc n => cases b <;> simp [DF.pyEq]
  | fltc n => cases b <;> simp [DF.pyEq]
  | strc n => cases b <;> simp [DF.pyEq]
  | ev v w x y => cases b <;> simp [DF.pyEq, Bool.and_assoc]
  | undef n => cases b <;> simp [DF.pyEq]
  | hiz n => cases b <;> simp [DF.pyEq]
  | op o ns ih =>
    cases b <;> simp [DF.pyEq]
    rename_i o' ms
    rw [pyEqs_exact ih ms ha hb, andThen_ok]
  | psel v m l h1 h2 h3 =>
    cases b <;> simp [DF.pyEq]
    rw [h1 _ ha.1 hb.1, h2 _ ha.2.1 hb.2.1, h3 _ ha.2.2 hb.2.2, andThen_ok, andThen_ok]
    simp [Bool.and_assoc]
  | ptr v m h1 h2 =>
    cases b <;> simp [DF.pyEq]
    rw [h1 _ ha.1 hb.1, h2 _ ha.2 hb.2, andThen_ok]
  | concat ns ih =>
    cases b <;> simp [DF.pyEq]
    rename_i ms
    rw [pyEqs_exact ih ms ha hb]
  | branch v m l h1 h2 h3 =>
    cases b <;> simp [DF.pyEq]
    rw [h1 _ ha.1 hb.1, h2 _ ha.2.1 hb.2.1, h3 _ ha.2.2 hb.2.2, andThen_ok, andThen_ok]
    simp [Bool.and_assoc]
  | delay n h => exact ha.elim
  | sys s ns ih =>
    cases b <;> simp [DF.pyEq]
    rename_i s' ms
    rw [pyEqs_exact ih ms ha hb, andThen_ok]

/-- **C100** Comparison is symmetric, for all nodes; it fails in one direction if it fails in the other. -/
theorem C100_symm (a b : DF) : a.pyEq b = b.pyEq a := by
  have hl : ∀ ns : List DF, (∀ n ∈ ns, ∀ b : DF, n.pyEq b = b.pyEq n) → ∀ ms, DF.pyEqs ns ms = DF.pyEqs ms ns := by
    intro ns
    induction ns with
    | nil => intro _ ms; cases ms <;> simp [DF.pyEqs]
    | cons n ns h =>
      intro ih ms
      cases ms with
      | nil => simp [DF.pyEqs]
      | cons m ms =>
        rw [DF.pyEqs, DF.pyEqs, ih n (List.mem_cons_self ..) m, h (fun x hx => ih x (List.mem_cons_of_mem _ hx)) ms]
  induction a using DF.ind generalizing b with
  | none => cases b <;> simp [DF.pyEq]
  | term n => cases b <;> simp [DF.pyEq, C02_eq_symm n]
  | intc n => cases b <;> simp [DF.pyEq, eq_comm]
  | fltc n => cases b <;> simp [DF.pyEq, eq_comm]
  | strc n => cases b <;> simp [DF.pyEq, eq_comm]
  | ev v w x y => cases b <;> simp [DF.pyEq, eq_comm]
  | undef n => cases b <;> simp [DF.pyEq, eq_comm]
  | hiz n => cases b <;> simp [DF.pyEq, eq_comm]
  | op o ns ih => cases b <;> simp [DF.pyEq, hl ns ih, eq_comm (a := o)]
  | psel v m l h1 h2 h3 => cases b <;> simp [DF.pyEq, h1, h2, h3]
  | ptr v m h1 h2 => cases b <;> simp [DF.pyEq, h1, h2]
  | concat ns ih => cases b <;> simp [DF.pyEq, hl ns ih]
  | branch v m l h1 h2 h3 => cases b <;> simp [DF.pyEq, h1, h2, h3]
  | delay n h => cases b <;> simp [DF.pyEq]
  | sys s ns ih => cases b <;> simp [DF.pyEq, hl ns ih, eq_comm (a := s)]

/-- **C100** Nodes that compare equal have the same hash, whatever the hash functions are, also with names given by the user. -/
theorem C100_hash {H : Type} (K : Hashing H) (a b : DF) (h : a.pyEq b = .ok true) : ∃ x, a.hash K = .ok x ∧ b.hash K = .ok x := by
  have hl : ∀ ns : List DF, (∀ n ∈ ns, ∀ b : DF, n.pyEq b = .ok true → ∃ x, n.hash K = .ok x ∧ b.hash K = .ok x) →
      ∀ ms, DF.pyEqs ns ms = .ok true → ∃ x, DF.hashes K ns = .ok x ∧ DF.hashes K ms = .ok x := by
    intro ns
    induction ns with
    | nil => intro _ ms h; cases ms <;> simp [DF.pyEqs] at h; exact ⟨[], rfl, rfl⟩
    | cons n ns hi =>
      intro ih ms h
      cases ms with
      | nil => simp [DF.pyEqs] at h
      | cons m ms =>
        obtain ⟨h1, h2⟩ := andThen_yes.mp h
        obtain ⟨x, e1, e2⟩ := ih n (List.mem_cons_self ..) m h1
        obtain ⟨y, e3, e4⟩ := hi (fun x hx => ih x (List.mem_cons_of_mem _ hx)) ms h2
        refine ⟨x :: y, ?_, ?_⟩
        · rw [DF.hashes, e1, e3]; rfl
        · rw [DF.hashes, e2, e4]; rfl
  induction a using DF.ind generalizing b with
  | none => cases b <;> simp [DF.pyEq] at h; exact ⟨_, rfl, rfl⟩
  | term n =>
    cases b <;> simp [DF.pyEq] at h
    rename_i m
    exact ⟨_, rfl, by rw [DF.hash, C01_equal_chains_hash_equal K.name n m h]⟩
  | intc n => cases b <;> simp [DF.pyEq] at h; subst h; exact ⟨_, rfl, rfl⟩
  | fltc n => cases b <;> simp [DF.pyEq] at h; subst h; exact ⟨_, rfl, rfl⟩
  | strc n => cases b <;> simp [DF.pyEq] at h; subst h; exact ⟨_, rfl, rfl⟩
  | ev v w x y =>
    cases b <;> simp [DF.pyEq] at h
    obtain ⟨⟨⟨rfl, rfl⟩, rfl⟩, rfl⟩ := h
    exact ⟨_, rfl, rfl⟩
  | undef n => cases b <;> simp [DF.pyEq] at h; subst h; exact ⟨_, rfl, rfl⟩
  | hiz n => cases b <;> simp [DF.pyEq] at h; subst h; exact ⟨_, rfl, rfl⟩
  | op o ns ih =>
    cases b <;> simp [DF.pyEq, andThen_yes] at h
    obtain ⟨rfl, h⟩ := h
    obtain ⟨x, e1, e2⟩ := hl ns ih _ h
    exact ⟨_, by rw [DF.hash, e1]; rfl, by rw [DF.hash, e2]; rfl⟩
  | psel v m l h1 h2 h3 =>
    cases b <;> simp [DF.pyEq, andThen_yes] at h
    obtain ⟨⟨a1, a2⟩, a3⟩ := h
    obtain ⟨x, e1, e2⟩ := h1 _ a1
    obtain ⟨y, e3, e4⟩ := h2 _ a2
    obtain ⟨z, e5, e6⟩ := h3 _ a3
    exact ⟨_, by rw [DF.hash, e1, e3, e5]; rfl, by rw [DF.hash, e2, e4, e6]; rfl⟩
  | ptr v m h1 h2 =>
    cases b <;> simp [DF.pyEq, andThen_yes] at h
    obtain ⟨x, e1, e2⟩ := h1 _ h.1
    obtain ⟨y, e3, e4⟩ := h2 _ h.2
    exact ⟨_, by rw [DF.hash, e1, e3]; rfl, by rw [DF.hash, e2, e4]; rfl⟩
  | concat ns ih =>
    cases b <;> simp [DF.pyEq] at h
    obtain ⟨x, e1, e2⟩ := hl ns ih _ h
    exact ⟨_, by rw [DF.hash, e1]; rfl, by rw [DF.hash, e2]; rfl⟩
  | branch v m l h1 h2 h3 =>
    cases b <;> simp [DF.pyEq, andThen_yes] at h
    obtain ⟨⟨a1, a2⟩, a3⟩ := h
    obtain ⟨x, e1, e2⟩ := h1 _ a1
    obtain ⟨y, e3, e4⟩ := h2 _ a2
    obtain ⟨z, e5, e6⟩ := h3 _ a3
    exact ⟨_, by rw [DF.hash, e1, e3, e5]; rfl, by rw [DF.hash, e2, e4, e6]; rfl⟩
  | delay n h => cases b <;> simp [DF.pyEq] at h
  | sys s ns ih =>
    cases b <;> simp [DF.pyEq, andThen_yes] at h
    obtain ⟨rfl, h⟩ := h
    obtain ⟨x, e1, e2⟩ := hl ns ih _ h
    exact ⟨_, by rw [DF.hash, e1]; rfl, by rw [DF.hash, e2]; rfl⟩

theorem settled_hash {H : Type} (K : Hashing H) (a : DF) (h : a.Settled) : ∃ x, a.hash K = .ok x := by
  obtain ⟨x, e, _⟩ := C100_hash K a a (by rw [C100_same_partial a a h h]; simp)
  exact ⟨x, e⟩

/-- **C100** A dictionary with nodes as keys finds the value of the key that is the same tree, and nothing for other trees, whatever the
hash functions are. -/
theorem C100_lookup_partial {H α : Type} [DecidableEq H] (K : Hashing H) (d : Dict DF α) (k : DF) (hd : ∀ p ∈ d, p.1.Settled)
    (hk : k.Settled) : nodeGet K d k = .ok (d.get? k) := by
  obtain ⟨h, eh⟩ := settled_hash K k hk
  have go : ∀ l : List (DF × α), (∀ p ∈ l, p.1.Settled) → nodeGet.go K k h l = .ok (Dict.get? l k) := by
    intro l
    induction l with
    | nil => intro _; rfl
    | cons p l ih =>
      obtain ⟨x, v⟩ := p
      intro hl
      have hx := hl (x, v) (List.mem_cons_self ..)
      obtain ⟨hh, ex⟩ := settled_hash K x hx
      rw [nodeGet.go, ex, okBind, C100_same_partial x k hx hk, okBind, Dict.get?_cons, ih (fun q hq => hl q (List.mem_cons_of_mem _ hq))]
      by_cases e : x = k
      · subst e
        rw [ex] at eh
        simp [Except.ok.inj eh]
      · simp [e]
  rw [nodeGet, eh, okBind]
  exact go d hd

/-- **C100** is false for delays: comparing two of them, and the hash of one, always raise AttributeError. -/
theorem C100_fails_delay {H : Type} (K : Hashing H) (m n : DF) :
    (DF.delay m).pyEq (.delay n) = .error .attribute ∧ (DF.delay m).hash K = .error .attribute := ⟨by rw [DF.pyEq], by rw [DF.hash]⟩

/-- **C100** is false for names given by the user: comparison is not transitive, and different trees are equal. -/
theorem C100_fails_transitive : ∃ a b c : DF, a.pyEq b = .ok true ∧ b.pyEq c = .ok true ∧ a.pyEq c = .ok false := by
  obtain ⟨a, b, c, h1, h2, h3⟩ := C02_eq_not_transitive
  exact ⟨.term a, .term b, .term c, by rw [DF.pyEq, h1], by rw [DF.pyEq, h2], by rw [DF.pyEq, h3]⟩

/-! ### Examples -/

def c100n (s : String) : DF := .term [⟨"m".toList, .module, none⟩, ⟨s.toList, .signal, none⟩]
def c100a : DF := .branch (.op .eq [c100n "a", .evi 1 (some 4)]) (.concat [c100n "b", .intc "1".toList]) .none
def c100b : DF := .branch (.op .eq [c100n "a", .evi 1 (some 32)]) (.concat [c100n "b", .intc "1".toList]) .none

example : c100a.Settled ∧ c100b.Settled := by
  simp [c100a, c100b, c100n, DF.Settled, DF.Settleds, ScopeChain.Concrete]

/-- One hash for everything: the dictionary still finds the right entry. -/
example : nodeGet (⟨fun _ => 0, fun _ => 0, fun _ => 0, fun _ => 0, fun _ => 0, fun _ => 0, fun _ => 0, 0⟩ : Hashing Nat)
    [(c100b, 1), (c100a, 2)] c100a = .ok (some 2) := by decide +kernel

example : c100a.pyEq c100a = .ok true ∧ c100a.pyEq c100b = .ok false := by
  constructor <;> decide +kernel

end Pyv
