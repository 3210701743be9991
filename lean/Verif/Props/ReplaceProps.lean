import Verif.Props.ReorderProps
/-
  C17: replaceUndefined (replace.py).
-/
namespace Pyv

mutual
/-- No undefined node and no missing subtree anywhere. -/
def Complete : DF → Prop
  | .none => False
  | .undef _ => False
  | .op _ ns => CompleteL ns
  | .concat ns => CompleteL ns
  | .sys _ ns => CompleteL ns
  | .psel v m l => Complete v ∧ Complete m ∧ Complete l
  | .ptr v p => Complete v ∧ Complete p
  | .branch c t f => Complete c ∧ Complete t ∧ Complete f
  | .delay n => Complete n
  | _ => True
/-- The same for lists. -/
def CompleteL : List DF → Prop
  | [] => True
  | n :: ns => Complete n ∧ CompleteL ns
end

mutual
/-- SPECIFICATION: the value of a tree when its undefined and missing parts have the value of signal `name`. -/
def semFill (ρ : Env) (name : ScopeChain) : DF → Option (Int × Int)
  | .none => ρ.sig name
  | .undef _ => ρ.sig name
  | .op o ns => do
    let xs ← semFillL ρ name ns
    let v ← opSem o (xs.map (·.1)) (maxWidth (xs.map (·.2))).toNat
    some (v, opWidth o (xs.map (·.2)))
  | .psel v m l => do
    let v ← semFill ρ name v
    let m ← semFill ρ name m
    let l ← semFill ρ name l
    pselVal v.1 m.1 l.1
  | .ptr v p => do
    let i ← semFill ρ name p
    match v with
    | .term n =>
      match ρ.arr n with
      | some f => f i.1
      | none => do let x ← ρ.sig n; bitVal x.1 i.1
    | v => do let x ← semFill ρ name v; bitVal x.1 i.1
  | .concat ns => do
    let xs ← semFillL ρ name ns
    concatVal xs
  | .branch c t f => do
    let b ← semFill ρ name c
    if b.1 ≠ 0 then semFill ρ name t else semFill ρ name f
  | t => sem ρ t
/-- The same for lists. -/
def semFillL (ρ : Env) (name : ScopeChain) : List DF → Option (List (Int × Int))
  | [] => some []
  | n :: ns => do
    let x ← semFill ρ name n
    let xs ← semFillL ρ name ns
    some (x :: xs)
end

/-- Mapping over the children. -/
theorem replaceList_mem {name ns rs} (h : replaceUndefinedList name ns = .ok rs) :
    List.Forall₂ (fun n r => replaceUndefined name n = .ok r) ns rs := by
  induction ns generalizing rs with
  | nil => simp [replaceUndefinedList] at h; subst h; exact .nil
  | cons n ns ih =>
    simp only [replaceUndefinedList, bind_ok, ok_inj] at h
    obtain ⟨x, hx, xs, hxs, rfl⟩ := h
    exact .cons hx (ih hxs)

/-- **C17** (completeness) The result has no undefined node and no missing subtree. -/
theorem C17_replace_complete (name : ScopeChain) (t r : DF) (h : replaceUndefined name t = .ok r) : Complete r := by
  induction t using DF.ind generalizing r with
  | op o ns ih =>
    simp only [replaceUndefined, bind_ok] at h
    obtain ⟨rs, hrs, h⟩ := h
    obtain ⟨rfl, hno⟩ := DF.mkOp_ok h
    have := replaceList_mem hrs
    simp only [Complete]
    clear h hrs hno
    induction this with
    | nil => simp [CompleteL]
    | cons a _ ih2 => exact ⟨ih _ (by simp) _ a, ih2 (fun n hn => ih n (by simp [hn]))⟩
  | concat ns ih =>
    simp only [replaceUndefined, bind_ok, ok_inj] at h
    obtain ⟨rs, hrs, rfl⟩ := h
    have := replaceList_mem hrs
    simp only [Complete]
    clear hrs
    induction this with
    | nil => simp [CompleteL]
    | cons a _ ih2 => exact ⟨ih _ (by simp) _ a, ih2 (fun n hn => ih n (by simp [hn]))⟩
  | psel v m l h1 h2 h3 =>
    simp only [replaceUndefined, bind_ok, ok_inj] at h
    obtain ⟨_, a, _, b, _, c, rfl⟩ := h
    exact ⟨h1 _ c, h2 _ a, h3 _ b⟩
  | ptr v p h1 h2 =>
    simp only [replaceUndefined, bind_ok, ok_inj] at h
    obtain ⟨_, a, _, b, rfl⟩ := h
    exact ⟨h1 _ b, h2 _ a⟩
  | branch v m l h1 h2 h3 =>
    simp only [replaceUndefined, bind_ok, ok_inj] at h
    obtain ⟨_, a, _, b, _, c, rfl⟩ := h
    exact ⟨h1 _ a, h2 _ b, h3 _ c⟩
  | _ => simp [replaceUndefined] at h <;> subst h <;> simp [Complete]

/-- **C17** (minimality) The result mentions only signals of the tree and `name`. -/
theorem C17_replace_terms (name : ScopeChain) (t r : DF) (h : replaceUndefined name t = .ok r) :
    ∀ x ∈ r.terms, x ∈ t.terms ∨ x = name := by
  induction t using DF.ind generalizing r with
  | op o ns ih | concat ns ih =>
    simp only [replaceUndefined, bind_ok, ok_inj] at h
    obtain ⟨rs, hrs, h⟩ := h
    have hm := replaceList_mem hrs
    have : ∀ x ∈ DF.termsList rs, x ∈ DF.termsList ns ∨ x = name := by
      clear h hrs
      induction hm with
      | nil => simp [DF.termsList]
      | cons a _ ih2 =>
        intro x hx
        simp only [DF.termsList, List.mem_append] at hx ⊢
        rcases hx with hx | hx
        · rcases ih _ (by simp) _ a x hx with g | g <;> simp [g]
        · rcases ih2 (fun n hn => ih n (by simp [hn])) x hx with g | g <;> simp [g]
    first
    | (obtain ⟨rfl, _⟩ := DF.mkOp_ok h; simpa [DF.terms] using this)
    | (subst h; simpa [DF.terms] using this)
  | psel v m l h1 h2 h3 =>
    simp only [replaceUndefined, bind_ok, ok_inj] at h
    obtain ⟨_, a, _, b, _, c, rfl⟩ := h
    intro x hx
    simp only [DF.terms, List.mem_append] at hx ⊢
    rcases hx with (hx | hx) | hx
    · rcases h1 _ c x hx with g | g <;> simp [g]
    · rcases h2 _ a x hx with g | g <;> simp [g]
    · rcases h3 _ b x hx with g | g <;> simp [g]
  | ptr v p h1 h2 =>
    simp only [replaceUndefined, bind_ok, ok_inj] at h
    obtain ⟨_, a, _, b, rfl⟩ := h
    intro x hx
    simp only [DF.terms, List.mem_append] at hx ⊢
    rcases hx with hx | hx
    · rcases h1 _ b x hx with g | g <;> simp [g]
    · rcases h2 _ a x hx with g | g <;> simp [g]
  | branch v m l h1 h2 h3 =>
    simp only [replaceUndefined, bind_ok, ok_inj] at h
    obtain ⟨_, a, _, b, _, c, rfl⟩ := h
    intro x hx
    simp only [DF.terms, List.mem_append] at hx ⊢
    rcases hx with (hx | hx) | hx
    · rcases h1 _ a x hx with g | g <;> simp [g]
    · rcases h2 _ b x hx with g | g <;> simp [g]
    · rcases h3 _ c x hx with g | g <;> simp [g]
  | _ => simp [replaceUndefined] at h <;> subst h <;> simp [DF.terms]

theorem semFill_ptr {ρ name v p} (hn : ρ.arr name = none) {v'} (hv : replaceUndefined name v = .ok v')
    (hs : sem ρ v' = semFill ρ name v) :
    semFill ρ name (.ptr v p) = (do let i ← semFill ρ name p; ptrSem ρ v' i) := by
  cases v with
  | term n => simp [replaceUndefined] at hv; subst hv; simp only [semFill]; rfl
  | none =>
    simp [replaceUndefined] at hv; subst hv; simp only [semFill, ptrSem, hn]
  | undef w =>
    simp [replaceUndefined] at hv; subst hv; simp only [semFill, ptrSem, hn]
  | hiz w => simp [replaceUndefined] at hv
  | delay w => simp [replaceUndefined] at hv
  | sys w => simp [replaceUndefined] at hv
  | intc s | fltc s | strc s | ev v w a b => simp [replaceUndefined] at hv; subst hv; simp only [semFill, ptrSem]
  | op o ns =>
    simp only [replaceUndefined, bind_ok] at hv
    obtain ⟨rs, _, hv⟩ := hv
    obtain ⟨rfl, _⟩ := DF.mkOp_ok hv
    rw [semFill]
    · simp only [ptrSem, hs]
  | psel a b c =>
    simp only [replaceUndefined, bind_ok, ok_inj] at hv
    obtain ⟨_, _, _, _, _, _, rfl⟩ := hv
    rw [semFill]; simp only [ptrSem, hs]
  | branch a b c =>
    simp only [replaceUndefined, bind_ok, ok_inj] at hv
    obtain ⟨_, _, _, _, _, _, rfl⟩ := hv
    rw [semFill]; simp only [ptrSem, hs]
  | ptr a b =>
    simp only [replaceUndefined, bind_ok, ok_inj] at hv
    obtain ⟨_, _, _, _, rfl⟩ := hv
    rw [semFill]; simp only [ptrSem, hs]
  | concat ns =>
    simp only [replaceUndefined, bind_ok, ok_inj] at hv
    obtain ⟨_, _, rfl⟩ := hv
    rw [semFill]; simp only [ptrSem, hs]

/-- **C17** (value) The result has the value of the tree with its undefined and missing parts read from `name`. -/
theorem C17_replace_value (ρ : Env) (name : ScopeChain) (hn : ρ.arr name = none) (t r : DF)
    (h : replaceUndefined name t = .ok r) : sem ρ r = semFill ρ name t := by
  induction t using DF.ind generalizing r with
  | op o ns ih | concat ns ih =>
    simp only [replaceUndefined, bind_ok, ok_inj] at h
    obtain ⟨rs, hrs, h⟩ := h
    have hm := replaceList_mem hrs
    have : semList ρ rs = semFillL ρ name ns := by
      clear h hrs
      induction hm with
      | nil => rfl
      | cons a _ ih2 => simp only [semList, semFillL, ih _ (by simp) _ a, ih2 (fun n hn => ih n (by simp [hn]))]
    first
    | (obtain ⟨rfl, _⟩ := DF.mkOp_ok h; simp only [sem, semFill, this])
    | (subst h; simp only [sem, semFill, this])
  | psel v m l h1 h2 h3 =>
    simp only [replaceUndefined, bind_ok, ok_inj] at h
    obtain ⟨_, a, _, b, _, c, rfl⟩ := h
    simp only [sem, semFill, h1 _ c, h2 _ a, h3 _ b]
  | ptr v p h1 h2 =>
    simp only [replaceUndefined, bind_ok, ok_inj] at h
    obtain ⟨_, a, _, b, rfl⟩ := h
    rw [semFill_ptr hn b (h1 _ b), sem_ptr, h2 _ a]
  | branch v m l h1 h2 h3 =>
    simp only [replaceUndefined, bind_ok, ok_inj] at h
    obtain ⟨_, a, _, b, _, c, rfl⟩ := h
    simp only [sem, semFill, h1 _ a, h2 _ b, h3 _ c]
  | _ => simp [replaceUndefined] at h <;> subst h <;> simp [sem, semFill]

/-- Filling in does not change the value where the tree had one. -/
theorem semFill_of_sem {ρ : Env} {name t x} (hs : sem ρ t = some x) : semFill ρ name t = some x := by
  have hL : ∀ ns : List DF, (∀ n ∈ ns, ∀ x, sem ρ n = some x → semFill ρ name n = some x) →
      ∀ xs, semList ρ ns = some xs → semFillL ρ name ns = some xs := by
    intro ns
    induction ns with
    | nil => intro _ xs h; simpa [semList, semFillL] using h
    | cons n ns ih =>
      intro h xs hx
      simp only [semList, obind_some] at hx
      obtain ⟨a, ha, as, has, hx⟩ := hx
      simp only [semFillL, obind_some]
      exact ⟨a, h n (by simp) a ha, as, ih (fun m hm => h m (by simp [hm])) as has, hx⟩
  induction t using DF.ind generalizing x with
  | op o ns ih =>
    simp only [sem, semFill, obind_some] at hs ⊢
    obtain ⟨xs, h1, h2⟩ := hs
    exact ⟨xs, hL ns (fun n hn x hx => ih n hn hx) xs h1, h2⟩
  | concat ns ih =>
    simp only [sem, semFill, obind_some] at hs ⊢
    obtain ⟨xs, h1, h2⟩ := hs
    exact ⟨xs, hL ns (fun n hn x hx => ih n hn hx) xs h1, h2⟩
  | psel v m l h1 h2 h3 =>
    simp only [sem, semFill, obind_some] at hs ⊢
    obtain ⟨a, ha, b, hb, c, hc, h⟩ := hs
    exact ⟨a, h1 ha, b, h2 hb, c, h3 hc, h⟩
  | branch c t f h1 h2 h3 =>
    simp only [sem, semFill, obind_some] at hs ⊢
    obtain ⟨a, ha, h⟩ := hs
    refine ⟨a, h1 ha, ?_⟩
    split at h
    · rename_i hh; rw [if_pos hh]; exact h2 h
    · rename_i hh; rw [if_neg hh]; exact h3 h
  | ptr v p h1 h2 =>
    rw [sem_ptr, obind_some] at hs
    obtain ⟨i, hi, hs⟩ := hs
    have hi' := h2 hi
    cases v with
    | term n =>
      simp only [ptrSem] at hs
      simp only [semFill, obind_some]
      exact ⟨i, hi', hs⟩
    | _ =>
      simp only [ptrSem, obind_some] at hs
      obtain ⟨y, hy, hs⟩ := hs
      rw [semFill, obind_some]
      · refine ⟨i, hi', ?_⟩
        simp only [obind_some]
        exact ⟨y, h1 hy, hs⟩
  | none => simp [sem] at hs
  | undef w => simp [sem] at hs
  | _ => simpa [semFill] using hs

/-- **C17** (conservativity) Wherever the tree had a value, the result has the same value. -/
theorem C17_replace_keeps_value (ρ : Env) (name : ScopeChain) (hn : ρ.arr name = none) (t r : DF)
    (h : replaceUndefined name t = .ok r) (x : Int × Int) (hs : sem ρ t = some x) : sem ρ r = some x := by
  rw [C17_replace_value ρ name hn t r h]; exact semFill_of_sem hs

/-- Non-vacuity: `s ? a : <missing>` and `{a, x}`. -/
example : replaceUndefined [⟨['q'], .signal, none⟩] (.branch (c14n 's') (.concat [c14n 'a', .undef (some 2)]) .none) =
      .ok (.branch (c14n 's') (.concat [c14n 'a', c14n 'q']) (c14n 'q')) ∧
    semFill c14env [⟨['q'], .signal, none⟩] (.branch (c14n 's') (.concat [c14n 'a', .undef (some 2)]) .none) = some (102, 8) := by
  exact ⟨by decide, by decide⟩

end Pyv
