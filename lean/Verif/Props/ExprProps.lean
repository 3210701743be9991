import Verif.Props.BindTreeProps
/-
  C57: expressions become trees with the same value (bindvisitor.py `makeDFTree`, `resolveBlockingAssign`).
-/
namespace Pyv

/-! ### Specification -/

/-- The value of indexing: the element of an array, or a bit. -/
def indexVal (ρ : Env) (n : Option ScopeChain) (whole : Option (Int × Int)) (i : Int) : Option (Int × Int) :=
  match n.bind ρ.arr with
  | some f => f i
  | none => do let x ← whole; bitVal x.1 i

mutual
/-- The value and width of an expression; `res` tells which signal a name denotes.  Unknown (`none`) for hierarchical names,
calls, floats, strings and constants with x or z digits. -/
def exVal (ρ : Env) (res : Str → Option ScopeChain) : Ex → Option (Int × Int)
  | .ident [] n => do let c ← res n; ρ.sig c
  | .ident (_ :: _) _ => none
  | .intc s => sem ρ (.intc s)
  | .fltc _ => none
  | .strc _ => none
  | .uplus e => exVal ρ res e
  | .un o e => do
    let x ← exVal ρ res e
    let v ← opSem o [x.1] (maxWidth [x.2]).toNat
    some (v, opWidth o [x.2])
  | .bin o a b => do
    let x ← exVal ρ res a
    let y ← exVal ρ res b
    let v ← opSem o [x.1, y.1] (maxWidth [x.2, y.2]).toNat
    some (v, opWidth o [x.2, y.2])
  | .cond c t f => do
    let b ← exVal ρ res c
    if b.1 ≠ 0 then exVal ρ res t else exVal ρ res f
  | .psel v m l => do
    let x ← exVal ρ res v
    let a ← exVal ρ res m
    let b ← exVal ρ res l
    pselVal x.1 a.1 b.1
  | .ptr v p => do
    let i ← exVal ρ res p
    indexVal ρ (match v with | .ident [] n => res n | _ => none) (exVal ρ res v) i.1
  | .concat es => do
    let xs ← exValL ρ res es
    concatVal xs
  | .rep t v => do
    let n ← exVal ρ res t
    let x ← exVal ρ res v
    concatVal (List.replicate n.1.toNat x)
  | .call _ _ => none
  | .sys f es =>
    if f = "unsigned".toList ∨ f = "signed".toList then
      match es with
      | [] => none
      | e :: _ => exVal ρ res e
    else none
/-- The values of a list of expressions. -/
def exValL (ρ : Env) (res : Str → Option ScopeChain) : List Ex → Option (List (Int × Int))
  | [] => some []
  | e :: es => do
    let x ← exVal ρ res e
    let xs ← exValL ρ res es
    some (x :: xs)
end

/-- The lookup functions of the conversion agree with `res` and with the valuation. -/
structure ExprEnv.Agrees (E : ExprEnv) (ρ : Env) (res : Str → Option ScopeChain) : Prop where
  find : ∀ n c, E.find n = .ok (some c) → res n = some c
  dims : ∀ c b, E.dims c = .ok b → (b = true ↔ (ρ.arr c).isSome)
  times : ∀ t n v, E.times t = .ok n → sem ρ t = some v → v.1 = n

/-! ### C57 -/

theorem sem_psel {ρ v m l} : sem ρ (.psel v m l) = (do let v ← sem ρ v; let m ← sem ρ m; let l ← sem ρ l; pselVal v.1 m.1 l.1) := rfl

theorem psel_bit (v p : Int) : pselVal v p p = bitVal v p := by
  simp [pselVal, bitVal]

theorem semList_replicate {ρ v x} (h : sem ρ v = some x) (n : Nat) : semList ρ (List.replicate n v) = some (List.replicate n x) := by
  induction n with
  | zero => rfl
  | succ n ih => simp [List.replicate_succ, semList, h, ih]

theorem insertOpList_sem {ρ o ns r} (h : insertOpList ns o = .ok r) :
    ∀ v, sem ρ (.op o ns) = some v → sem ρ r = some v := by
  have := hoistList_sem (ρ := ρ) (bb := false)
    (F := fun xs => do
      let v ← opSem o (xs.map (·.1)) (maxWidth (xs.map (·.2))).toNat
      some (v, opWidth o (xs.map (·.2)))) (k := DF.mkOp o) (done := []) (ns := ns) (r := r)
    (by
      intro ns r h
      obtain ⟨rfl, -⟩ := DF.mkOp_ok h
      exact Rf.refl _) h
  exact this.1

theorem insertConcat_sem {ρ ns r} (h : insertConcat ns = .ok r) :
    ∀ v, sem ρ (.concat ns) = some v → sem ρ r = some v := by
  have := hoistList_sem (ρ := ρ) (bb := false) (F := fun xs => concatVal xs) (k := fun ns => .ok (.concat ns))
    (done := []) (ns := ns) (r := r)
    (by
      intro ns r h
      simp only [ok_inj] at h
      subst h
      exact Rf.refl _) h
  exact this.1

theorem insertPartselect_sem {ρ v m l r} (h : insertPartselect v m l = .ok r) :
    ∀ x, sem ρ (.psel v m l) = some x → sem ρ r = some x := by
  have := hoistNode_sem (ρ := ρ) (bb := false) (F := fun v => sem ρ (.psel v m l)) (n := v) (r := r)
    (k := fun n => match n with | .none => .ok .none | n => .ok (.psel n m l))
    (by
      intro c t f
      simp only [sem_psel, sem_branch]
      cases sem ρ c with
      | none => rfl
      | some b => by_cases hb : b.1 = 0 <;> simp [hb])
    (by
      intro n r h hb
      by_cases hn : n = .none
      · subst hn
        simp only [ok_inj] at h
        subst h
        exact ⟨fun v hv => by simp [sem] at hv, fun h => by cases h⟩
      · have : r = .psel n m l := by
          cases n <;> simp_all
        subst this
        exact Rf.refl _) h
  exact this.1

theorem insertPointer_sem {ρ v p r} (ha : ∀ n, v = .term n → ρ.arr n = none) (hl : ∀ n, ρ.arr n ≠ none → ρ.sig n = none)
    (h : insertPointer v p = .ok r) :
    ∀ x, sem ρ (.ptr v p) = some x → sem ρ r = some x := by
  have hb : ∀ v x, (∀ n, v = .term n → ρ.arr n = none) → sem ρ (.ptr v p) = some x →
      (do let i ← sem ρ p; let x ← sem ρ v; bitVal x.1 i.1) = some x := by
    intro v x hv hx
    cases v <;> first | exact hx | skip
    rename_i n
    simp only [sem, hv n rfl] at hx
    exact hx
  have := hoistNode_sem (ρ := ρ) (bb := false) (F := fun v => do let i ← sem ρ p; let x ← sem ρ v; bitVal x.1 i.1) (n := v) (r := r)
    (k := fun n => match n with | .none => .ok .none | n => .ok (.ptr n p))
    (by
      intro c t f
      simp only [sem_branch]
      cases sem ρ c with
      | none => cases sem ρ p <;> rfl
      | some b => by_cases hb : b.1 = 0 <;> simp [hb])
    (by
      intro n r h hbr
      by_cases hn : n = .none
      · subst hn
        simp only [ok_inj] at h
        subst h
        exact ⟨fun v hv => by
          simp only [sem] at hv
          cases hp : sem ρ p <;> simp [hp] at hv, fun h => by cases h⟩
      · have : r = .ptr n p := by
          cases n <;> simp_all
        subst this
        refine ⟨fun v hv => ?_, fun h => by cases h⟩
        cases n <;> first | exact hv | skip
        rename_i n
        have hnone : ρ.arr n = none := by
          by_contra hne
          have := hl n hne
          simp only [sem, this] at hv
          cases hp : sem ρ p <;> simp [hp] at hv
        simp only [sem, hnone]
        exact hv) h
  intro x hx
  exact this.1 x (hb v x ha hx)

/-- **C57** An expression and the data flow tree made from it have the same value and width, whenever the expression has
one. -/
theorem C57_expression_value (ρ : Env) (ha : ArraysOK ρ) (res : Str → Option ScopeChain) (E : ExprEnv) (hE : E.Agrees ρ res)
    (e : Ex) : ∀ (t : DF) (v : Int × Int), E.makeDF e = .ok t → exVal ρ res e = some v → sem ρ t = some v := by
  induction e using Ex.ind with
  | ident s n =>
    intro t v h hv
    cases s with
    | cons a as => simp [exVal] at hv
    | nil =>
      simp only [ExprEnv.makeDF, bind_ok] at h
      obtain ⟨r, hr, h⟩ := h
      cases r with
      | none => cases h
      | some c =>
        simp only [ok_inj] at h
        subst h
        have := hE.find n c hr
        simpa [exVal, this, sem] using hv
  | intc s => intro t v h hv; simp only [ExprEnv.makeDF, ok_inj] at h; subst h; exact hv
  | fltc s => intro t v h hv; simp [exVal] at hv
  | strc s => intro t v h hv; simp [exVal] at hv
  | uplus e _ => intro t v h; simp [ExprEnv.makeDF] at h
  | un o e ih =>
    intro t v h hv
    simp only [ExprEnv.makeDF, bind_ok] at h
    obtain ⟨e', he, h⟩ := h
    simp only [exVal, Option.bind_eq_bind, Option.bind_eq_some_iff] at hv
    obtain ⟨x, hx, w, hw, hv⟩ := hv
    refine insertOpList_sem h v ?_
    simp [sem, semList, ih _ _ he hx, hw, hv]
  | bin o a b iha ihb =>
    intro t v h hv
    simp only [ExprEnv.makeDF, bind_ok] at h
    obtain ⟨a', ha', b', hb', h⟩ := h
    simp only [exVal, Option.bind_eq_bind, Option.bind_eq_some_iff] at hv
    obtain ⟨x, hx, y, hy, w, hw, hv⟩ := hv
    refine insertOpList_sem h v ?_
    simp [sem, semList, iha _ _ ha' hx, ihb _ _ hb' hy, hw, hv]
  | cond c t f ihc iht ihf =>
    intro r v h hv
    simp only [ExprEnv.makeDF, bind_ok] at h
    obtain ⟨t', ht, f', hf, c', hc, h⟩ := h
    split at h
    · cases h
    · simp only [ok_inj] at h
      subst h
      simp only [exVal, Option.bind_eq_bind, Option.bind_eq_some_iff] at hv
      obtain ⟨b, hb, hv⟩ := hv
      rw [sem_branch, ihc _ _ hc hb]
      simp only [Option.bind_eq_bind, Option.bind_some]
      split
      · rename_i e; rw [if_pos e] at hv; exact iht _ _ ht hv
      · rename_i e; rw [if_neg e] at hv; exact ihf _ _ hf hv
  | psel v m l ihv ihm ihl =>
    intro r x h hx
    simp only [ExprEnv.makeDF, bind_ok] at h
    obtain ⟨v', hv', m', hm', l', hl', h⟩ := h
    simp only [exVal, Option.bind_eq_bind, Option.bind_eq_some_iff] at hx
    obtain ⟨y, hy, a, ha', b, hb, hx⟩ := hx
    have hs : sem ρ (.psel v' m' l') = some x := by
      simp [sem, ihv _ _ hv' hy, ihm _ _ hm' ha', ihl _ _ hl' hb, hx]
    split at h
    · exact insertPartselect_sem h x hs
    · simp only [ok_inj] at h; subst h; exact hs
  | ptr v p ihv ihp =>
    intro r x h hx
    simp only [ExprEnv.makeDF, bind_ok] at h
    obtain ⟨v', hv', p', hp', h⟩ := h
    simp only [exVal, Option.bind_eq_bind, Option.bind_eq_some_iff] at hx
    obtain ⟨i, hi, hx⟩ := hx
    have hpi := ihp _ _ hp' hi
    have bitcase : (∀ y, exVal ρ res v = some y → bitVal y.1 i.1 = some x → sem ρ (.psel v' p' p') = some x) := by
      intro y hy hb
      simp [sem, ihv _ _ hv' hy, hpi, psel_bit, hb]
    by_cases hterm : ∃ n, v' = .term n
    · obtain ⟨n, rfl⟩ := hterm
      simp only [bind_ok, ok_inj] at h
      obtain ⟨d, hd, h⟩ := h
      subst h
      have hdd := hE.dims n d hd
      by_cases hid : ∃ nm, v = .ident [] nm
      · obtain ⟨nm, rfl⟩ := hid
        simp only [ExprEnv.makeDF, bind_ok] at hv'
        obtain ⟨q, hq, hv'⟩ := hv'
        cases q with
        | none => cases hv'
        | some c =>
          simp only [ok_inj, DF.term.injEq] at hv'
          subst hv'
          have hres := hE.find _ _ hq
          simp only [indexVal, hres, Option.bind_some] at hx
          cases har : ρ.arr c with
          | some f =>
            simp only [har] at hx
            have : d = true := hdd.mpr (by simp [har])
            subst this
            simp [sem, hpi, har, hx]
          | none =>
            simp only [har] at hx
            have : d = false := by
              cases d
              · rfl
              · have := hdd.mp rfl; simp [har] at this
            subst this
            simp only [Option.bind_eq_bind, Option.bind_eq_some_iff] at hx
            obtain ⟨y, hy, hb⟩ := hx
            simpa using bitcase y hy hb
      · have hx' : ∃ y, exVal ρ res v = some y ∧ bitVal y.1 i.1 = some x := by
          have : (match v with | .ident [] n => res n | _ => none) = none := by
            cases v <;> try rfl
            rename_i s nm
            cases s with
            | nil => exact absurd ⟨nm, rfl⟩ hid
            | cons => rfl
          simp only [indexVal] at hx
          rw [this] at hx
          simpa [Option.bind_eq_some_iff] using hx
        obtain ⟨y, hy, hb⟩ := hx'
        have hsig := ihv _ _ hv' hy
        have : ρ.arr n = none := by
          cases har : ρ.arr n with
          | none => rfl
          | some f =>
            have := ha n f har
            simp [sem, this] at hsig
        have : d = false := by
          cases d
          · rfl
          · have := hdd.mp rfl; simp_all
        subst this
        simpa using bitcase y hy hb
    · have hr : r = .psel v' p' p' := by
        cases v' <;> simp_all
      subst hr
      by_cases hid : ∃ nm, v = .ident [] nm
      · obtain ⟨nm, rfl⟩ := hid
        exfalso
        simp only [ExprEnv.makeDF, bind_ok] at hv'
        obtain ⟨q, hq, hv'⟩ := hv'
        cases q with
        | none => cases hv'
        | some c => simp only [ok_inj] at hv'; exact hterm ⟨c, hv'.symm⟩
      · have hx' : ∃ y, exVal ρ res v = some y ∧ bitVal y.1 i.1 = some x := by
          have : (match v with | .ident [] n => res n | _ => none) = none := by
            cases v <;> try rfl
            rename_i s nm
            cases s with
            | nil => exact absurd ⟨nm, rfl⟩ hid
            | cons => rfl
          simp only [indexVal] at hx
          rw [this] at hx
          simpa [Option.bind_eq_some_iff] using hx
        obtain ⟨y, hy, hb⟩ := hx'
        exact bitcase y hy hb
  | concat es ih =>
    intro r v h hv
    simp only [ExprEnv.makeDF, bind_ok] at h
    obtain ⟨es', hes, h⟩ := h
    simp only [exVal, Option.bind_eq_bind, Option.bind_eq_some_iff] at hv
    obtain ⟨xs, hxs, hv⟩ := hv
    have hl : ∀ (es : List Ex) (_ : ∀ e ∈ es, ∀ (t : DF) (v : Int × Int), E.makeDF e = .ok t → exVal ρ res e = some v → sem ρ t = some v)
        (ts : List DF) (xs), E.makeDFList es = .ok ts → exValL ρ res es = some xs → semList ρ ts = some xs := by
      intro es
      induction es with
      | nil => intro _ ts xs h1 h2; simp only [ExprEnv.makeDFList, ok_inj] at h1; subst h1; simpa [exValL, semList] using h2
      | cons e es ihl =>
        intro hh ts xs h1 h2
        simp only [ExprEnv.makeDFList, bind_ok, ok_inj] at h1
        obtain ⟨a, ha', as, has, rfl⟩ := h1
        simp only [exValL, Option.bind_eq_bind, Option.bind_eq_some_iff] at h2
        obtain ⟨y, hy, ys, hys, h2⟩ := h2
        simp [semList, hh e (by simp) _ _ ha' hy, ihl (fun e he => hh e (by simp [he])) _ _ has hys, h2]
    have hs : sem ρ (.concat es') = some v := by
      simp [sem, hl es ih _ _ hes hxs, hv]
    split at h
    · exact insertConcat_sem h v hs
    · simp only [ok_inj] at h; subst h; exact hs
  | rep t w iht ihw =>
    intro r v h hv
    simp only [ExprEnv.makeDF, bind_ok, ok_inj] at h
    obtain ⟨t', ht, n, hn, w', hw, rfl⟩ := h
    simp only [exVal, Option.bind_eq_bind, Option.bind_eq_some_iff] at hv
    obtain ⟨m, hm, x, hx, hv⟩ := hv
    have := hE.times t' n m hn (iht _ _ ht hm)
    subst this
    simp [sem, semList_replicate (ihw _ _ hw hx), hv]
  | call f es _ => intro t v h hv; simp [exVal] at hv
  | sys f es ih =>
    intro t v h hv
    rw [exVal.eq_def] at hv
    simp only at hv
    split at hv
    · rename_i hf
      rw [ExprEnv.makeDF.eq_def] at h
      simp only [if_pos hf] at h
      cases es with
      | nil => cases hv
      | cons e es => exact ih e (by simp) t v h hv
    · cases hv

/-! ### Substitution -/

/-- The value of a signal that an environment of `resolveBlockingAssign` stands for: `ρ` gives the values of the signals
as the statement sees them, `σ` the values the resulting trees refer to. -/
structure ResEnv.Agrees (R : ResEnv) (ρ σ : Env) : Prop where
  look : ∀ n u v, R.look n = .ok u → ρ.sig n = some v → sem σ u = some v
  dims : ∀ n b, R.dims n = .ok b → (b = true ↔ (ρ.arr n).isSome)
  arr : ∀ n, σ.arr n = ρ.arr n
  elems : ∀ n bs, R.dims n = .ok true → R.elems n = .ok bs → bs = []
  dw : σ.dw = ρ.dw

theorem ptrSem_other {ρ v i} (h : ∀ n, v ≠ .term n) : ptrSem ρ v i = (do let x ← sem ρ v; bitVal x.1 i.1) := by
  cases v <;> first | rfl | (rename_i n; exact absurd rfl (h n))

/-- **C57** Replacing the signals of a tree by the trees of what was assigned to them gives the tree the value it has when
the signals have the assigned values (arrays not reassigned). -/
theorem C57_substitution_value (ρ σ : Env) (ha : ArraysOK ρ) (hσ : ArraysOK σ) (R : ResEnv) (hR : R.Agrees ρ σ) (t : DF) :
    ∀ (r : DF) (v : Int × Int), R.resolve t = .ok r → sem ρ t = some v → sem σ r = some v := by
  have hl : ∀ (ts : List DF) (_ : ∀ t ∈ ts, ∀ (r : DF) (v : Int × Int), R.resolve t = .ok r → sem ρ t = some v → sem σ r = some v)
      (rs : List DF) (xs), R.resolveList ts = .ok rs → semList ρ ts = some xs → semList σ rs = some xs := by
    intro ts
    induction ts with
    | nil => intro _ rs xs h1 h2; simp only [ResEnv.resolveList, ok_inj] at h1; subst h1; simpa [semList] using h2
    | cons e es ihl =>
      intro hh rs xs h1 h2
      simp only [ResEnv.resolveList, bind_ok, ok_inj] at h1
      obtain ⟨a, ha', as, has, rfl⟩ := h1
      simp only [semList, Option.bind_eq_bind, Option.bind_eq_some_iff] at h2
      obtain ⟨y, hy, ys, hys, h2⟩ := h2
      simp [semList, hh e (by simp) _ _ ha' hy, ihl (fun e he => hh e (by simp [he])) _ _ has hys, h2]
  induction t using DF.ind with
  | none => intro r v h hv; simp [sem] at hv
  | intc s =>
    intro r v h hv
    simp only [ResEnv.resolve, ok_inj] at h
    subst h
    simpa [sem] using hv
  | fltc s => intro r v h hv; simp [sem] at hv
  | strc s => intro r v h hv; simp [sem] at hv
  | ev a w b c =>
    intro r v h hv
    simp only [ResEnv.resolve, ok_inj] at h
    subst h
    cases a <;> simp [sem] at hv ⊢
    rw [hR.dw]; exact hv
  | undef w => intro r v h hv; simp [sem] at hv
  | hiz w => intro r v h hv; simp [sem] at hv
  | term n =>
    intro r v h hv
    exact hR.look n r v h hv
  | op o ns ih =>
    intro r v h hv
    simp only [ResEnv.resolve, bind_ok] at h
    obtain ⟨rs, hrs, h⟩ := h
    simp only [sem, Option.bind_eq_bind, Option.bind_eq_some_iff] at hv
    obtain ⟨xs, hxs, hv⟩ := hv
    have hs : sem σ (.op o rs) = some v := by
      simp only [sem, hl ns ih _ _ hrs hxs, Option.bind_eq_bind, Option.bind_some]
      simpa [Option.bind_eq_some_iff] using hv
    split at h
    · exact insertOpList_sem h v hs
    · obtain ⟨rfl, -⟩ := DF.mkOp_ok h; exact hs
  | concat ns ih =>
    intro r v h hv
    simp only [ResEnv.resolve, bind_ok] at h
    obtain ⟨rs, hrs, h⟩ := h
    simp only [sem, Option.bind_eq_bind, Option.bind_eq_some_iff] at hv
    obtain ⟨xs, hxs, hv⟩ := hv
    have hs : sem σ (.concat rs) = some v := by
      simp [sem, hl ns ih _ _ hrs hxs, hv]
    split at h
    · exact insertConcat_sem h v hs
    · simp only [ok_inj] at h; subst h; exact hs
  | branch c t f ihc iht ihf =>
    intro r v h hv
    simp only [ResEnv.resolve, bind_ok, ok_inj] at h
    obtain ⟨t', ht, f', hf, c', hc, rfl⟩ := h
    rw [sem_branch] at hv
    simp only [Option.bind_eq_bind, Option.bind_eq_some_iff] at hv
    obtain ⟨b, hb, hv⟩ := hv
    have hs : sem σ (.branch c' t' f') = some v := by
      rw [sem_branch, ihc _ _ hc hb]
      simp only [Option.bind_eq_bind, Option.bind_some]
      split
      · rename_i e; rw [if_pos e] at hv; exact iht _ _ ht hv
      · rename_i e; rw [if_neg e] at hv; exact ihf _ _ hf hv
    split
    · rw [insertBranch_sem]; exact hs
    · exact hs
  | psel v m l ihv ihm ihl =>
    intro r x h hx
    simp only [ResEnv.resolve, bind_ok] at h
    obtain ⟨m', hm', l', hl', v', hv', h⟩ := h
    simp only [sem, Option.bind_eq_bind, Option.bind_eq_some_iff] at hx
    obtain ⟨y, hy, a, ha', b, hb, hx⟩ := hx
    have hs : sem σ (.psel v' m' l') = some x := by
      simp [sem, ihv _ _ hv' hy, ihm _ _ hm' ha', ihl _ _ hl' hb, hx]
    split at h
    · exact insertPartselect_sem h x hs
    · simp only [ok_inj] at h; subst h; exact hs
  | ptr v p ihv ihp =>
    intro r x h hx
    simp only [ResEnv.resolve, bind_ok] at h
    obtain ⟨p', hp', a, hda, h⟩ := h
    rw [sem_ptr] at hx
    simp only [Option.bind_eq_bind, Option.bind_eq_some_iff] at hx
    obtain ⟨i, hi, hx⟩ := hx
    have hpi := ihp _ _ hp' hi
    by_cases hterm : ∃ n, v = .term n
    · obtain ⟨n, rfl⟩ := hterm
      simp only at hda
      have hdd := hR.dims n a hda
      cases a
      · have har : ρ.arr n = none := by
          cases h' : ρ.arr n with
          | none => rfl
          | some f => have := hdd.mpr (by simp [h']); cases this
        simp only [Bool.false_eq_true, if_false, bind_ok] at h
        obtain ⟨v', hv', h⟩ := h
        simp only [ptrSem, har, Option.bind_eq_bind, Option.bind_eq_some_iff] at hx
        obtain ⟨y, hy, hx⟩ := hx
        have hyv := ihv _ _ hv' (by simpa [sem] using hy)
        have hnt : ∀ m, v' = .term m → σ.arr m = none := by
          rintro m rfl
          cases hm : σ.arr m with
          | none => rfl
          | some f => have := hσ m f hm; simp [sem, this] at hyv
        have hs : sem σ (.ptr v' p') = some x := by
          rw [sem_ptr, hpi]
          simp only [Option.bind_eq_bind, Option.bind_some]
          cases v' <;> simp only [ptrSem] <;> first | (simp only [hyv, Option.bind_some]; exact hx) | skip
          rename_i m
          rw [hnt m rfl]
          simp only [sem] at hyv
          simp [hyv, hx]
        split at h
        · exact insertPointer_sem hnt (fun n hn => by
            cases hm : σ.arr n with
            | none => exact absurd hm hn
            | some f => exact hσ n f hm) h x hs
        · simp only [ok_inj] at h; subst h; exact hs
      · simp only [if_true, bind_ok] at h
        obtain ⟨bs, hbs, h⟩ := h
        have := hR.elems n bs hda hbs
        subst this
        simp only [List.foldlM_nil, pure, Except.pure, ok_inj] at h
        subst h
        rw [sem_ptr, hpi]
        simp only [Option.bind_eq_bind, Option.bind_some]
        cases har : ρ.arr n with
        | none => have := hdd.mp rfl; simp [har] at this
        | some f =>
          simp only [ptrSem, har] at hx
          simp only [ptrSem, hR.arr, har, hx]
    · have hterm' : ∀ n, v ≠ .term n := fun n e => hterm ⟨n, e⟩
      have hda' : a = false := by
        cases v <;> first | exact (Except.ok.inj hda).symm | (rename_i n; exact absurd rfl (hterm' n))
      subst hda'
      simp only [Bool.false_eq_true, if_false, bind_ok] at h
      obtain ⟨v', hv', h⟩ := h
      have hx' : ∃ y, sem ρ v = some y ∧ bitVal y.1 i.1 = some x := by
        rw [ptrSem_other hterm'] at hx
        simpa [Option.bind_eq_some_iff] using hx
      obtain ⟨y, hy, hx⟩ := hx'
      have hyv := ihv _ _ hv' hy
      have hnt : ∀ m, v' = .term m → σ.arr m = none := by
        rintro m rfl
        cases hm : σ.arr m with
        | none => rfl
        | some f => have := hσ m f hm; simp [sem, this] at hyv
      have hs : sem σ (.ptr v' p') = some x := by
        rw [sem_ptr, hpi]
        simp only [Option.bind_eq_bind, Option.bind_some]
        cases v' <;> simp only [ptrSem] <;> first | (simp only [hyv, Option.bind_some]; exact hx) | skip
        rename_i m
        rw [hnt m rfl]
        simp only [sem] at hyv
        simp [hyv, hx]
      split at h
      · exact insertPointer_sem hnt (fun n hn => by
          cases hm : σ.arr n with
          | none => exact absurd hm hn
          | some f => exact hσ n f hm) h x hs
      · simp only [ok_inj] at h; subst h; exact hs
  | delay n _ => intro r v h hv; simp [sem] at hv
  | sys s ns _ => intro r v h hv; simp [sem] at hv

end Pyv
