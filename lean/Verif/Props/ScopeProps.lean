import Verif.Scope
/-
  C01, C02, C03: scope chains.
-/
namespace Pyv

/-! ### C01 -/

theorem ScopeLabel.pyEq_hash {a b : ScopeLabel} (h : a.pyEq b = true) : a.hashKey = b.hashKey := by
  unfold ScopeLabel.pyEq at h
  unfold ScopeLabel.hashKey
  split at h <;> simp_all

/-- **C01** Equal scope chains hash equally: for any way `h` of hashing the tuple of (name, loop) pairs that
`ScopeChain.__hash__` feeds to Python's tuple hash, chains that compare equal get the same hash. -/
theorem C01_equal_chains_hash_equal {H : Type} (h : List (Str × Option Int) → H) (c d : ScopeChain)
    (heq : ScopeChain.pyEq c d = true) : h c.hashKey = h d.hashKey := by
  congr 1
  induction c generalizing d with
  | nil => cases d <;> simp_all [ScopeChain.pyEq, ScopeChain.hashKey]
  | cons a as ih =>
    cases d with
    | nil => simp [ScopeChain.pyEq] at heq
    | cons b bs =>
      simp only [ScopeChain.pyEq, Bool.and_eq_true] at heq
      have h1 := ScopeLabel.pyEq_hash heq.1
      have h2 := ih bs heq.2
      simp only [ScopeChain.hashKey, List.map_cons] at *
      rw [h1, h2]

/-- Non-vacuity: a wildcard chain equals an analyzed name although their scope types differ. -/
example : ScopeChain.pyEq (toTermname "top.a".toList)
    [⟨"top".toList, .module, none⟩, ⟨"a".toList, .signal, none⟩] = true := by decide

/-! ### C02 -/

/-- A chain is *concrete* when none of its scope types is the wildcard 'any'. -/
def ScopeChain.Concrete (c : ScopeChain) : Prop := ∀ l ∈ c, l.type ≠ .any

theorem ScopeLabel.pyEq_refl (a : ScopeLabel) : a.pyEq a = true := by
  unfold ScopeLabel.pyEq; split <;> simp

theorem ScopeLabel.pyEq_symm (a b : ScopeLabel) : a.pyEq b = b.pyEq a := by
  unfold ScopeLabel.pyEq
  by_cases h : a.type = .any ∨ b.type = .any
  · have h' : b.type = .any ∨ a.type = .any := h.symm
    rw [if_pos h, if_pos h']
    exact decide_eq_decide.mpr ⟨Eq.symm, Eq.symm⟩
  · have h' : ¬ (b.type = .any ∨ a.type = .any) := fun x => h x.symm
    rw [if_neg h, if_neg h']
    exact decide_eq_decide.mpr ⟨Eq.symm, Eq.symm⟩

/-- **C02** (reflexivity and symmetry) Scope chain equality is reflexive and symmetric. -/
theorem C02_eq_refl (c : ScopeChain) : ScopeChain.pyEq c c = true := by
  induction c with
  | nil => rfl
  | cons a as ih => simp [ScopeChain.pyEq, ScopeLabel.pyEq_refl, ih]

theorem C02_eq_symm (c d : ScopeChain) : ScopeChain.pyEq c d = ScopeChain.pyEq d c := by
  induction c generalizing d with
  | nil => cases d <;> rfl
  | cons a as ih =>
    cases d with
    | nil => rfl
    | cons b bs => simp [ScopeChain.pyEq, ScopeLabel.pyEq_symm a b, ih bs]

theorem ScopeLabel.pyEq_concrete {a b : ScopeLabel} (ha : a.type ≠ .any) (hb : b.type ≠ .any) :
    a.pyEq b = true ↔ a = b := by
  unfold ScopeLabel.pyEq
  rw [if_neg (by simp [ha, hb])]
  cases a; cases b; simp

/-- **C02** (concrete names) On names without wildcards, equality is exactly equality of every scope's name,
type and loop index; in particular it is an equivalence relation there. -/
theorem C02_eq_concrete (c d : ScopeChain) (hc : c.Concrete) (hd : d.Concrete) :
    ScopeChain.pyEq c d = true ↔ c = d := by
  induction c generalizing d with
  | nil => cases d <;> simp [ScopeChain.pyEq]
  | cons a as ih =>
    cases d with
    | nil => simp [ScopeChain.pyEq]
    | cons b bs =>
      have ha := hc a (by simp)
      have hb := hd b (by simp)
      have := ih bs (fun l hl => hc l (by simp [hl])) (fun l hl => hd l (by simp [hl]))
      simp [ScopeChain.pyEq, ScopeLabel.pyEq_concrete ha hb, this]

theorem pyEq_toTermnameList (ns : List Str) (c : ScopeChain) :
    ScopeChain.pyEq (toTermnameList ns) c = true ↔ c.map (·.name) = ns ∧ ∀ l ∈ c, l.loop = none := by
  induction ns generalizing c with
  | nil => cases c <;> simp [toTermnameList, ScopeChain.pyEq]
  | cons n ns ih =>
    cases c with
    | nil => simp [toTermnameList, ScopeChain.pyEq]
    | cons l ls =>
      have := ih ls
      simp only [toTermnameList] at this
      simp only [toTermnameList, List.map_cons, ScopeChain.pyEq, Bool.and_eq_true, this,
        ScopeLabel.pyEq]
      simp only [true_or, if_true, decide_eq_true_eq, Prod.mk.injEq]
      simp only [List.cons.injEq, List.mem_cons, forall_eq_or_imp]
      constructor
      · rintro ⟨⟨h1, h2⟩, h3, h4⟩; exact ⟨⟨h1.symm, h3⟩, h2.symm, h4⟩
      · rintro ⟨⟨h1, h3⟩, h2, h4⟩; exact ⟨⟨h1.symm, h2.symm⟩, h3, h4⟩

theorem splitOn_ne_nil (sep : Char) (s : Str) : splitOn sep s ≠ [] := by
  cases s with
  | nil => simp [splitOn]
  | cons c cs =>
    simp only [splitOn]
    split
    · simp
    · split <;> simp

theorem splitOn_append (sep : Char) (w rest : Str) (hw : sep ∉ w) :
    splitOn sep (w ++ sep :: rest) = w :: splitOn sep rest := by
  induction w with
  | nil => simp [splitOn]
  | cons c cs ih =>
    simp only [List.mem_cons, not_or] at hw
    have hne : ¬ c = sep := fun h => hw.1 h.symm
    simp [splitOn, hne, ih hw.2]

theorem splitOn_noSep (sep : Char) (w : Str) (hw : sep ∉ w) : splitOn sep w = [w] := by
  induction w with
  | nil => simp [splitOn]
  | cons c cs ih =>
    simp only [List.mem_cons, not_or] at hw
    have hne : ¬ c = sep := fun h => hw.1 h.symm
    simp [splitOn, hne, ih hw.2]

theorem splitOn_dotJoin (ns : List Str) (hne : ns ≠ []) (h : ∀ n ∈ ns, '.' ∉ n) :
    splitOn '.' (dotJoin ns) = ns := by
  induction ns with
  | nil => exact absurd rfl hne
  | cons w ws ih =>
    cases ws with
    | nil => exact splitOn_noSep _ _ (h w (by simp))
    | cons v vs =>
      simp only [dotJoin]
      rw [splitOn_append _ _ _ (h w (by simp))]
      rw [ih (by simp) (fun n hn => h n (by simp [hn]))]

/-- **C02** (wildcard lookup) The name a user writes, `toTermname("a.b.c")` for dot-free components, equals a
signal's scope chain exactly when the components are the chain's scope names in order and the chain carries
no loop index. -/
theorem C02_wildcard_lookup (ns : List Str) (hne : ns ≠ []) (hdot : ∀ n ∈ ns, '.' ∉ n) (c : ScopeChain) :
    ScopeChain.pyEq (toTermname (dotJoin ns)) c = true ↔ c.map (·.name) = ns ∧ ∀ l ∈ c, l.loop = none := by
  rw [toTermname, splitOn_dotJoin ns hne hdot, pyEq_toTermnameList]

example : (["top".toList, "u".toList] ≠ []) ∧ ∀ n ∈ ["top".toList, "u".toList], '.' ∉ n := by decide

/-- **C02** (limit) Equality is not transitive: a wildcard name equals two different signals. -/
theorem C02_eq_not_transitive : ∃ a b c : ScopeChain, ScopeChain.pyEq a b = true ∧
    ScopeChain.pyEq b c = true ∧ ScopeChain.pyEq a c = false :=
  ⟨[⟨"x".toList, .module, none⟩], [⟨"x".toList, .any, none⟩], [⟨"x".toList, .signal, none⟩], by decide⟩

/-! ### C03 -/

/-- **C03 is false of the code**: two different signals of different hierarchies get one flat name. -/
theorem C03_flatname_collision : ∃ c d : ScopeChain, c.Concrete ∧ d.Concrete ∧ (∀ l ∈ c ++ d, l.type.print) ∧
    c ≠ d ∧ c.tocode = d.tocode :=
  ⟨[⟨"a_b".toList, .module, none⟩, ⟨"c".toList, .signal, none⟩],
   [⟨"a".toList, .module, none⟩, ⟨"b_c".toList, .signal, none⟩],
   by intro l hl; simp at hl; rcases hl with rfl | rfl <;> simp,
   by intro l hl; simp at hl; rcases hl with rfl | rfl <;> simp,
   by decide, by decide, by decide⟩

/-- Also inside one module: signals of two different unnamed generate scopes collide, because generate scopes
are not printed. -/
theorem C03_flatname_collision_generate : ∃ c d : ScopeChain, c ≠ d ∧ c.tocode = d.tocode ∧
    c.map (·.type) = [.module, .generate, .signal] ∧ d.map (·.type) = [.module, .generate, .signal] :=
  ⟨[⟨"top".toList, .module, none⟩, ⟨"g0".toList, .generate, none⟩, ⟨"x".toList, .signal, none⟩],
   [⟨"top".toList, .module, none⟩, ⟨"g1".toList, .generate, none⟩, ⟨"x".toList, .signal, none⟩],
   by decide, by decide, by decide, by decide⟩

/-- Names joined by underscores. -/
def usJoin : List Str → Str
  | [] => []
  | [w] => w
  | w :: ws => w ++ '_' :: usJoin ws

theorem splitOn_usJoin (ns : List Str) (hne : ns ≠ []) (h : ∀ n ∈ ns, '_' ∉ n) :
    splitOn '_' (usJoin ns) = ns := by
  induction ns with
  | nil => exact absurd rfl hne
  | cons w ws ih =>
    cases ws with
    | nil => exact splitOn_noSep _ _ (h w (by simp))
    | cons v vs =>
      simp only [usJoin]
      rw [splitOn_append _ _ _ (h w (by simp)), ih (by simp) (fun n hn => h n (by simp [hn]))]

/-- All scopes of the chain are printed and have a name. -/
def ScopeChain.Printed (c : ScopeChain) : Prop := ∀ l ∈ c, l.type.unprint = false ∧ l.name ≠ []

theorem tocodeParts_printed (c : ScopeChain) (h : c.Printed) :
    ScopeChain.tocodeParts none c = c.flatMap (fun l => [l.name, ['_']]) := by
  induction c with
  | nil => rfl
  | cons s rest ih =>
    have hs := h s (by simp)
    have hr : ScopeChain.Printed rest := fun l hl => h l (by simp [hl])
    have hcode : s.tocode = s.name := by simp [ScopeLabel.tocode, hs.1]
    have hfor : s.type ≠ .for_ := by intro hf; rw [hf] at hs; simp [ScopeType.unprint] at hs
    have hit : s.suffix = none := by
      unfold ScopeLabel.suffix
      split
      · rename_i h1 _; exact absurd h1 hfor
      · rfl
    simp only [ScopeChain.tocodeParts, hcode, hit, ih hr]
    simp [hs.2]

theorem tocode_printed (c : ScopeChain) (h : c.Printed) : c.tocode = usJoin (c.map (·.name)) := by
  unfold ScopeChain.tocode
  rw [tocodeParts_printed c h]
  clear h
  induction c with
  | nil => rfl
  | cons s rest ih =>
    cases rest with
    | nil => simp [usJoin]
    | cons t ts =>
      simp only [List.flatMap_cons, List.map_cons, usJoin] at ih ⊢
      rw [List.dropLast_append_of_ne_nil (by simp)]
      simp only [List.flatten_append]
      rw [ih]
      simp

/-- **C03 (partial)** Flat names of chains all of whose scopes are printed are distinct as soon as the scope
names differ and contain no underscore.  Missing for the full claim: names containing underscores and
unprinted (generate/for/...) scopes, where the code really collides (`C03_flatname_collision`,
`C03_flatname_collision_generate`). -/
theorem C03_flatname_injective_partial (c d : ScopeChain) (hc : c.Printed) (hd : d.Printed)
    (hcu : ∀ l ∈ c, '_' ∉ l.name) (hdu : ∀ l ∈ d, '_' ∉ l.name)
    (h : c.tocode = d.tocode) : c.map (·.name) = d.map (·.name) := by
  rw [tocode_printed c hc, tocode_printed d hd] at h
  have hcu' : ∀ n ∈ c.map (·.name), '_' ∉ n := by simpa using hcu
  have hdu' : ∀ n ∈ d.map (·.name), '_' ∉ n := by simpa using hdu
  by_cases hcn : c = []
  · subst hcn
    cases d with
    | nil => rfl
    | cons x xs =>
      exfalso
      have hx := (hd x (by simp)).2
      cases xs with
      | nil => simp only [List.map_cons, List.map_nil, usJoin] at h; exact hx h.symm
      | cons y ys =>
        simp only [List.map_cons, List.map_nil, usJoin] at h
        simp at h
  · by_cases hdn : d = []
    · subst hdn
      exfalso
      cases c with
      | nil => exact hcn rfl
      | cons x xs =>
        have hx := (hc x (by simp)).2
        cases xs with
        | nil => simp only [List.map_cons, List.map_nil, usJoin] at h; exact hx h
        | cons y ys => simp [usJoin] at h
    · have e1 := splitOn_usJoin (c.map (·.name)) (by simpa using hcn) hcu'
      have e2 := splitOn_usJoin (d.map (·.name)) (by simpa using hdn) hdu'
      rw [← e1, ← e2, h]

example : ScopeChain.Printed [⟨"top".toList, .module, none⟩, ⟨"x".toList, .signal, none⟩] ∧
    ∀ l ∈ ([⟨"top".toList, .module, none⟩, ⟨"x".toList, .signal, none⟩] : ScopeChain), '_' ∉ l.name := by
  constructor
  · intro l hl; simp at hl; rcases hl with rfl | rfl <;> simp [ScopeType.unprint]
  · intro l hl; simp at hl; rcases hl with rfl | rfl <;> simp

end Pyv
