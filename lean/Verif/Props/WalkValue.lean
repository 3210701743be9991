import Verif.Props.WalkLeaves
import Verif.Props.IntConstProps
/-
  C55: walking keeps the value.
-/
namespace Pyv

/-! ### Specification: values with declared ranges

As `sem` (Sem.lean), but a bit or part select outside the selected value is unknown, and bit positions of a signal
count from its declared least significant bit. -/

/-- A valuation: values, widths and declared least significant bits of the signals. -/
structure VEnv extends Env where
  lo : ScopeChain → Int

/-- The position of the least significant bit of the node a select is applied to. -/
def VEnv.base (ρ : VEnv) : DF → Int
  | .term n => ρ.lo n
  | .ptr (.term n) _ => if (ρ.arr n).isSome then ρ.lo n else 0
  | _ => 0

/-- Bits `m` to `l` of a value, counted from bit 0; unknown unless all these bits exist. -/
def vslice (x : Int × Int) (m l : Int) : Option (Int × Int) :=
  if l < 0 ∨ m < l ∨ x.2 ≤ m then none else some (x.1 / 2 ^ l.toNat % 2 ^ (m - l + 1).toNat, m - l + 1)

mutual
/-- The value and width of a tree under a valuation; `none` = unknown. -/
def vsem (ρ : VEnv) : DF → Option (Int × Int)
  | .term n => ρ.sig n
  | .intc s =>
    if s.any (fun c => c = 'x' ∨ c = 'z' ∨ c = 'X' ∨ c = 'Z') then none
    else match intConstEval s, intConstWidth s with
      | .ok v, .ok w => some (v, w)
      | _, _ => none
  | .ev (.int v) w _ _ => some (v, w.getD ρ.dw)
  | .op o ns => do
    let xs ← vsemList ρ ns
    let v ← opSem o (xs.map (·.1)) (maxWidth (xs.map (·.2))).toNat
    some (v, opWidth o (xs.map (·.2)))
  | .psel v m l => do
    let x ← vsem ρ v
    let m ← vsem ρ m
    let l ← vsem ρ l
    vslice x (m.1 - ρ.base v) (l.1 - ρ.base v)
  | .ptr v p => do
    let i ← vsem ρ p
    match v with
    | .term n =>
      match ρ.arr n with
      | some f => f i.1
      | none => do let x ← ρ.sig n; vslice x (i.1 - ρ.lo n) (i.1 - ρ.lo n)
    | v => do let x ← vsem ρ v; vslice x (i.1 - ρ.base v) (i.1 - ρ.base v)
  | .concat ns => do
    let xs ← vsemList ρ ns
    concatVal xs
  | .branch c t f => do
    let b ← vsem ρ c
    if b.1 ≠ 0 then vsem ρ t else vsem ρ f
  | _ => none
/-- The values of a list of trees; unknown if one of them is. -/
def vsemList (ρ : VEnv) : List DF → Option (List (Int × Int))
  | [] => some []
  | n :: ns => do
    let x ← vsem ρ n
    let xs ← vsemList ρ ns
    some (x :: xs)
end

/-- What a select by `i` of the node `v` gives. -/
def vptr (ρ : VEnv) (v : DF) (i : Int × Int) : Option (Int × Int) :=
  match v with
  | .term n =>
    match ρ.arr n with
    | some f => f i.1
    | none => do let x ← ρ.sig n; vslice x (i.1 - ρ.lo n) (i.1 - ρ.lo n)
  | v => do let x ← vsem ρ v; vslice x (i.1 - ρ.base v) (i.1 - ρ.base v)

theorem vsem_ptr {ρ : VEnv} {v p : DF} : vsem ρ (.ptr v p) = (do let i ← vsem ρ p; vptr ρ v i) := by
  cases v <;> simp only [vsem, vptr]

theorem vptr_plain {ρ : VEnv} {v : DF} {i : Int × Int} (h : ∀ n, v = .term n → ρ.arr n = none) :
    vptr ρ v i = (do let x ← vsem ρ v; vslice x (i.1 - ρ.base v) (i.1 - ρ.base v)) := by
  cases v with
  | term n => simp only [vptr, h n rfl, vsem, VEnv.base]
  | _ => simp only [vptr]

/-! ### Decimal strings -/

theorem isDigit_digitChar {d : Nat} (h : d < 10) : IsDigit 10 d.digitChar d := by
  have : ∀ d < 10, (d.digitChar, d) ∈ digitTable := by decide
  exact ⟨this d h, h⟩

theorem SpellsTail.append {r : Nat} {s t : Str} {a b : List Nat} (h : SpellsTail r s a) (h' : SpellsTail r t b) :
    SpellsTail r (s ++ t) (a ++ b) := by
  induction h with
  | nil => simpa
  | us _ ih => exact .us ih
  | digit hd _ ih => exact .digit hd ih

theorem positional_append (r : Nat) (a : List Nat) (d : Nat) : positional r (a ++ [d]) = positional r a * r + d := by
  induction a with
  | nil => simp [positional]
  | cons x a ih => simp only [List.cons_append, positional, ih, List.length_append, List.length_singleton, pow_succ]; ring

theorem natStr_spells (n : Nat) : ∃ ds, Spells 10 (natStr n) ds ∧ positional 10 ds = n := by
  induction n using Nat.strongRecOn with
  | ind n ih =>
    unfold natStr at ih ⊢
    by_cases h : n < 10
    · rw [Nat.toDigits_of_lt_base h]
      exact ⟨[n], ⟨_, _, _, _, rfl, rfl, isDigit_digitChar h, .nil⟩, by simp [positional]⟩
    · rw [Nat.toDigits_of_base_le (by omega) (by omega)]
      obtain ⟨ds, ⟨c, d, s, ds', e, rfl, hd, ht⟩, hp⟩ := ih (n / 10) (by omega)
      have hl : n % 10 < 10 := by omega
      rw [e]
      refine ⟨(d :: ds') ++ [n % 10], ⟨c, d, s ++ _, ds' ++ [n % 10], rfl, rfl, hd, ?_⟩, ?_⟩
      · first
        | exact ht.append (.digit (isDigit_digitChar hl) .nil)
        | (rw [Nat.toDigits_of_lt_base hl]; exact ht.append (.digit (isDigit_digitChar hl) .nil))
      · rw [positional_append, hp]; omega

theorem spells_chars {r : Nat} (hr : r ≤ 10) {s : Str} {ds : List Nat} (h : Spells r s ds) :
    ∀ c ∈ s, c ∈ '_' :: decChars := by
  have ht : ∀ {s ds}, SpellsTail r s ds → ∀ c ∈ s, c ∈ '_' :: decChars := by
    intro s ds h
    induction h with
    | nil => simp
    | us _ ih =>
      intro c hc
      rcases List.mem_cons.mp hc with rfl | hc
      · simp
      · exact ih c hc
    | digit hd _ ih =>
      intro c hc
      rcases List.mem_cons.mp hc with rfl | hc
      · exact List.mem_cons_of_mem _ ((isDigit_cases hd).2 hr)
      · exact ih c hc
  obtain ⟨c, d, s', ds', rfl, rfl, hd, h⟩ := h
  exact ht (.digit hd h)

theorem vsem_natStr (ρ : VEnv) {n : Int} (h : 0 ≤ n) : vsem ρ (.intc (intStr n)) = some (n, 32) := by
  obtain ⟨ds, hs, hp⟩ := natStr_spells n.natAbs
  have e : intStr n = natStr n.natAbs := by unfold intStr; rw [if_neg (by omega)]
  have he : intConstEval (natStr n.natAbs) = .ok n := by
    rw [C04_plain_decimal _ _ hs, hp]; congr 1; omega
  have hc := spells_chars (by omega) hs
  have hx : (natStr n.natAbs).any (fun c => c = 'x' ∨ c = 'z' ∨ c = 'X' ∨ c = 'Z') = false := by
    rw [List.any_eq_false]
    intro c h'
    have : ∀ c ∈ '_' :: decChars, ¬ (decide (c = 'x' ∨ c = 'z' ∨ c = 'X' ∨ c = 'Z')) = true := by decide
    exact this c (hc c h')
  have hq : '\'' ∉ stripUs (natStr n.natAbs) := by
    intro h'
    have := hc _ (List.mem_of_mem_filter h')
    exact absurd this (by decide)
  have hw : intConstWidth (natStr n.natAbs) = .ok 32 := by
    unfold intConstWidth
    simp only [searchSize, searchSize_go_none hq]
  rw [e, vsem, hx, he, hw]
  rfl

theorem vslice_vslice {x y z : Int × Int} {a b m l : Int} (h1 : vslice x a b = some y) (h2 : vslice y m l = some z) :
    vslice x (m + b) (l + b) = some z := by
  unfold vslice at h1 h2 ⊢
  split at h1
  · exact absurd h1 (by simp)
  rw [Option.some.injEq] at h1
  subst h1
  split at h2
  · exact absurd h2 (by simp)
  rw [Option.some.injEq] at h2
  subst h2
  simp only at *
  rw [if_neg (by omega)]
  simp only [Option.some.injEq, Prod.mk.injEq]
  refine ⟨?_, by omega⟩
  rw [show m + b - (l + b) + 1 = m - l + 1 by omega]
  obtain ⟨l, rfl⟩ : ∃ l' : Nat, l = l' := ⟨l.toNat, by omega⟩
  obtain ⟨b, rfl⟩ : ∃ b' : Nat, b = b' := ⟨b.toNat, by omega⟩
  obtain ⟨j, hj⟩ : ∃ j : Nat, m - l + 1 = j := ⟨(m - l + 1).toNat, by omega⟩
  obtain ⟨k, hk⟩ : ∃ k : Nat, a - b + 1 = k := ⟨(a - b + 1).toNat, by omega⟩
  rw [hj, hk]
  rw [show ((l : Int) + b).toNat = b + l by omega]
  simp only [Int.toNat_natCast]
  have hkj : l + j ≤ k := by omega
  obtain ⟨e, rfl⟩ : ∃ e, k = l + j + e := ⟨k - (l + j), by omega⟩
  generalize x.1 = v
  rw [pow_add 2 b l, ← Int.ediv_ediv_of_nonneg (by positivity)]
  generalize v / 2 ^ b = v
  -- (v % 2^(l+j+e)) / 2^l % 2^j = v / 2^l % 2^j
  have h := Int.emod_add_mul_ediv v (2 ^ (l + j + e))
  generalize hq : v / 2 ^ (l + j + e) = q at h
  conv_lhs => rw [← h]
  rw [show (2 : Int) ^ (l + j + e) * q = 2 ^ l * (2 ^ j * (2 ^ e * q)) by ring, Int.add_mul_ediv_left _ _ (by positivity),
    Int.add_mul_emod_self_left]

/-! ### The theorem -/

variable {S : MergeEnv}

/-- SPECIFICATION: the valuation fits the declarations: arrays have values per index, other signals a single value,
all declared with least significant bit 0. -/
structure MergeEnv.Fits (S : MergeEnv) (ρ : VEnv) : Prop where
  array : ∀ n, S.IsArray n → ρ.sig n = none ∧ (ρ.arr n).isSome = true
  plain : ∀ n, ¬ S.IsArray n → ρ.arr n = none
  zero : ∀ n, ρ.lo n = 0
  lsb : ∀ p ∈ S.terms, ∀ c, p.2.lsb.evalInt = .ok c → c = 0

/-- SPECIFICATION: in the valuation, every signal that is driven by assignments (for `step = 0`: outside clocked always
blocks) and is not an input of the top module has the value of its tree. -/
structure MergeEnv.Settled (S : MergeEnv) (ρ : VEnv) (step : Int) : Prop where
  plain : ∀ n, ¬ S.TopInput n → (S.ClockedReg n → step ≠ 0) → ¬ S.IsArray n →
    ∀ t, S.getTree n .none = .ok t → ∀ v, ρ.sig n = some v → vsem ρ t = some v
  array : ∀ n, ¬ S.TopInput n → (S.ClockedReg n → step ≠ 0) → S.IsArray n →
    ∀ i t, S.getTree n i = .ok t → ∀ v, vsem ρ (.ptr (.term n) i) = some v → t = .term n ∨ vsem ρ t = some v

theorem MergeEnv.Settled.pred {S : MergeEnv} {ρ : VEnv} {step : Int} (h : S.Settled ρ step) (hs : step ≠ 0) : S.Settled ρ (step - 1) :=
  ⟨fun n h1 _ => h.plain n h1 (fun _ => hs), fun n h1 _ => h.array n h1 (fun _ => hs)⟩

theorem Fits.base {ρ : VEnv} (h : S.Fits ρ) (t : DF) : ρ.base t = 0 := by
  unfold VEnv.base
  split
  · exact h.zero _
  · split
    · exact h.zero _
    · rfl
  · rfl

theorem evalInt_vsem {ρ : VEnv} {t : DF} {v : Int × Int} {i : Int} (h : vsem ρ t = some v) (hi : t.evalInt = .ok i) : i = v.1 := by
  cases t with
  | intc s =>
    simp only [DF.evalInt] at hi
    simp only [vsem, hi] at h
    split at h
    · cases h
    · split at h
      · rename_i e1 e2
        rw [Except.ok.injEq] at e1; subst e1
        rw [Option.some.injEq] at h; subst h; rfl
      · cases h
  | ev x w a b =>
    cases x with
    | int x => simp [vsem] at h; simp [DF.evalInt, PyVal.toInt] at hi; subst h; subst hi; rfl
    | _ => simp [vsem] at h
  | _ => simp [DF.evalInt] at hi

theorem childLsb_zero {ρ : VEnv} (h : S.Fits ρ) {t : DF} {c : Int} (hc : S.childLsb t = .ok c) : c = 0 := by
  unfold MergeEnv.childLsb at hc
  split at hc
  · split at hc
    · exact absurd hc (by simp)
    · rename_i tm e
      unfold MergeEnv.termByRepr at e
      rw [Option.map_eq_some_iff] at e
      obtain ⟨p, hp, rfl⟩ := e
      exact h.lsb p (List.mem_of_find?_eq_some hp) c hc
  · exact absurd hc (by simp)

theorem vsemList_mapM {ρ : VEnv} {f : DF → Py DF} {ns rs : List DF} (h : ns.mapM f = .ok rs)
    (hf : ∀ n ∈ ns, ∀ r, f n = .ok r → ∀ v, vsem ρ n = some v → vsem ρ r = some v) :
    ∀ vs, vsemList ρ ns = some vs → vsemList ρ rs = some vs := by
  rw [mapM_ok] at h
  induction h with
  | nil => exact fun vs h => h
  | cons a _ ih =>
    intro vs hvs
    simp only [vsemList, obind_some] at hvs ⊢
    obtain ⟨x, hx, xs, hxs, h⟩ := hvs
    exact ⟨x, hf _ (by simp) _ a x hx, xs, ih (fun n hn => hf n (by simp [hn])) xs hxs, h⟩

theorem walk_value {ρ : VEnv} (hF : S.Fits ρ) (k : Nat) : ∀ (V : List ScopeChain) (step : Int) (sel : Bool) (p t r : DF),
    S.Settled ρ step → S.walk k V step sel p t = .ok r → ∀ v, vsem ρ t = some v → vsem ρ r = some v := by
  induction k using Nat.strong_induction_on with
  | _ k IH =>
  cases k with
  | zero => intro V step sel p t r _ h; simp [MergeEnv.walk] at h
  | succ k =>
    have ih := IH k (by omega)
    intro V step sel p t r hS h v hv
    cases t with
    | none | undef w | hiz w | fltc s | strc s => simp [vsem] at hv
    | intc s | ev v w a b => simp only [MergeEnv.walk, ok_inj] at h; subst h; exact hv
    | delay n => simp [MergeEnv.walk] at h
    | sys s ns => simp [MergeEnv.walk] at h
    | op o ns =>
      simp only [MergeEnv.walk, bind_ok] at h
      obtain ⟨rs, hrs, h⟩ := h
      obtain ⟨rfl, -⟩ := DF.mkOp_ok h
      simp only [vsem, obind_some] at hv ⊢
      obtain ⟨xs, hxs, hv⟩ := hv
      exact ⟨xs, vsemList_mapM hrs (fun n _ r hr v hv => ih _ _ _ _ _ _ hS hr v hv) xs hxs, hv⟩
    | concat ns =>
      simp only [MergeEnv.walk, bind_ok, ok_inj] at h
      obtain ⟨rs, hrs, rfl⟩ := h
      simp only [vsem, obind_some] at hv ⊢
      obtain ⟨xs, hxs, hv⟩ := hv
      exact ⟨xs, vsemList_mapM hrs (fun n _ r hr v hv => ih _ _ _ _ _ _ hS hr v hv) xs hxs, hv⟩
    | branch c a b =>
      simp only [MergeEnv.walk, bind_ok, ok_inj] at h
      obtain ⟨c', hc, a', ha, b', hb, rfl⟩ := h
      simp only [vsem, obind_some] at hv ⊢
      obtain ⟨x, hx, hv⟩ := hv
      refine ⟨x, ih _ _ _ _ _ _ hS hc x hx, ?_⟩
      split at hv
      · rename_i hh; rw [if_pos hh]; exact ih _ _ _ _ _ _ hS ha v hv
      · rename_i hh; rw [if_neg hh]; exact ih _ _ _ _ _ _ hS hb v hv
    | psel w m l =>
      simp only [MergeEnv.walk, bind_ok] at h
      obtain ⟨m', hm, l', hl, w', hw, h⟩ := h
      simp only [vsem, obind_some, Fits.base hF, sub_zero] at hv
      obtain ⟨x, hx, mv, hmv, lv, hlv, hv⟩ := hv
      have hx' := ih _ _ _ _ _ _ hS hw x hx
      have hm' := ih _ _ _ _ _ _ hS hm mv hmv
      have hl' := ih _ _ _ _ _ _ hS hl lv hlv
      unfold MergeEnv.walkPsel at h
      split at h
      · rename_i y a b
        simp only [bind_ok, ok_inj] at h
        obtain ⟨c, hc, i, hi, j, hj, q, hq, rfl⟩ := h
        obtain rfl := childLsb_zero hF hc
        simp only [vsem, obind_some, Fits.base hF, sub_zero] at hx'
        obtain ⟨x1, hx1, av, hav, bv, hbv, hx'⟩ := hx'
        obtain rfl := evalInt_vsem hm' hi
        obtain rfl := evalInt_vsem hl' hq
        obtain rfl := evalInt_vsem hbv hj
        have hz := vslice_vslice hx' hv
        have hnn : 0 ≤ lv.1 + bv.1 ∧ lv.1 + bv.1 ≤ mv.1 + bv.1 := by
          unfold vslice at hz
          split at hz
          · cases hz
          · omega
        simp only [vsem.eq_5, obind_some, Fits.base hF, sub_zero]
        exact ⟨x1, hx1, _, vsem_natStr ρ (by omega), _, vsem_natStr ρ (by omega), hz⟩
      · rw [ok_inj] at h; subst h
        simp only [vsem.eq_5, obind_some, Fits.base hF, sub_zero]
        exact ⟨x, hx', mv, hm', lv, hl', hv⟩
    | ptr w i =>
      simp only [MergeEnv.walk, bind_ok] at h
      obtain ⟨i', hi, w', hw, h⟩ := h
      have hv0 := hv
      rw [vsem_ptr, obind_some] at hv
      obtain ⟨iv, hiv, hv⟩ := hv
      have hi' := ih _ _ _ _ _ _ hS hi iv hiv
      by_cases harr : ∃ n, w = .term n ∧ S.IsArray n
      · obtain ⟨n, rfl, ha⟩ := harr
        have hsig := (hF.array n ha).1
        have hpv : vsem ρ (.ptr (.term n) i') = some v := by rw [vsem_ptr, obind_some]; exact ⟨iv, hi', hv⟩
        have hd : S.hasDims n = .ok true := by
          obtain ⟨t, ht, h⟩ := ha
          unfold MergeEnv.hasDims
          rw [ht, ← h]
        simp only [MergeEnv.walkPtr, hd, ok_bind, true_and, ok_inj] at h
        cases k with
        | zero => simp [MergeEnv.walk] at hw
        | succ k =>
          rcases walk_term hw with ⟨rfl, hc⟩ | ⟨q, t, hV, hin, hq, hg, hww⟩
          · simp at h; subst h; exact hpv
          · rcases hq with ⟨rfl, _⟩ | ⟨_, hq⟩
            · have hcl : S.ClockedReg n → step ≠ 0 := by
                intro hc
                rcases hww with h | h
                · exact h.2.1
                · exact absurd hc h.1
              have hex : ∃ step', S.Settled ρ step' ∧ S.walk k (n :: V) step' false .none t = .ok w' := by
                rcases hww with h | h
                · exact ⟨_, hS.pred h.2.1, h.2.2⟩
                · exact ⟨_, hS, h.2⟩
              obtain ⟨step', hS', hw'⟩ := hex
              rcases hS.array n hin hcl ha q t hg v hpv with rfl | ht
              · cases k with
                | zero => simp [MergeEnv.walk] at hw'
                | succ k =>
                  simp only [MergeEnv.walk, List.mem_cons, true_or, if_true, ok_inj] at hw'
                  subst hw'
                  simp at h; subst h; exact hpv
              · have hval : vsem ρ w' = some v := IH k (by omega) _ _ _ _ _ _ hS' hw' v ht
                have hne : w' ≠ .term n := by rintro rfl; simp [vsem, hsig] at hval
                rw [if_pos hne] at h; subst h; exact hval
            · exact absurd ha hq
      · have hpl : ∀ n, w = .term n → ρ.arr n = none := fun n e => hF.plain n (fun ha => harr ⟨n, e, ha⟩)
        rw [vptr_plain hpl, obind_some] at hv
        obtain ⟨x, hx, hv⟩ := hv
        have hx' := ih _ _ _ _ _ _ hS hw x hx
        have hr : r = .ptr w' i' := by
          unfold MergeEnv.walkPtr at h
          split at h
          · rename_i n
            simp only [bind_ok, ok_inj] at h
            obtain ⟨d, hd, rfl⟩ := h
            cases d with
            | false => simp
            | true => exact absurd ⟨n, rfl, hasDims_true hd⟩ harr
          · rw [ok_inj] at h; exact h.symm
        subst hr
        rw [vsem_ptr, obind_some]
        refine ⟨iv, hi', ?_⟩
        rw [vptr_plain, obind_some]
        · exact ⟨x, hx', by simpa only [Fits.base hF] using hv⟩
        · rintro n rfl
          refine hF.plain n (fun ha => ?_)
          simp [vsem, (hF.array n ha).1] at hx'
    | term n =>
      rcases walk_term h with ⟨rfl, -⟩ | ⟨q, t, hV, hin, hq, hg, hw⟩
      · exact hv
      · have hna : ¬ S.IsArray n := fun ha => by simp [vsem, (hF.array n ha).1] at hv
        rcases hq with ⟨_, ha⟩ | ⟨rfl, _⟩
        · exact absurd ha hna
        · simp only [vsem] at hv
          rcases hw with ⟨hc, hs, hw⟩ | ⟨hc, hw⟩
          · exact ih _ _ _ _ _ _ (hS.pred hs) hw v (hS.plain n hin (fun _ => hs) hna t hg v hv)
          · exact ih _ _ _ _ _ _ hS hw v (hS.plain n hin (fun h => absurd h hc) hna t hg v hv)

theorem replace_vsem {ρ : VEnv} (hF : S.Fits ρ) (name : ScopeChain) (t r : DF) (h : replaceUndefined name t = .ok r)
    (v : Int × Int) (hv : vsem ρ t = some v) : vsem ρ r = some v := by
  have hL : ∀ ns : List DF, (∀ n ∈ ns, ∀ r, replaceUndefined name n = .ok r → ∀ v, vsem ρ n = some v → vsem ρ r = some v) →
      ∀ rs, replaceUndefinedList name ns = .ok rs → ∀ vs, vsemList ρ ns = some vs → vsemList ρ rs = some vs := by
    intro ns
    induction ns with
    | nil => intro _ rs h vs hv; simp only [replaceUndefinedList, ok_inj] at h; subst h; exact hv
    | cons n ns ih =>
      intro hn rs h vs hv
      simp only [replaceUndefinedList, bind_ok, ok_inj] at h
      obtain ⟨x, hx, xs, hxs, rfl⟩ := h
      simp only [vsemList, obind_some] at hv ⊢
      obtain ⟨a, ha, as, has, hv⟩ := hv
      exact ⟨a, hn n (by simp) x hx a ha, as, ih (fun m hm => hn m (by simp [hm])) xs hxs as has, hv⟩
  induction t using DF.ind generalizing r v with
  | op o ns ih =>
    simp only [replaceUndefined, bind_ok] at h
    obtain ⟨rs, hrs, h⟩ := h
    obtain ⟨rfl, -⟩ := DF.mkOp_ok h
    simp only [vsem, obind_some] at hv ⊢
    obtain ⟨xs, hxs, hv⟩ := hv
    exact ⟨xs, hL ns (fun n hn r hr v hv => ih n hn r hr v hv) rs hrs xs hxs, hv⟩
  | concat ns ih =>
    simp only [replaceUndefined, bind_ok, ok_inj] at h
    obtain ⟨rs, hrs, rfl⟩ := h
    simp only [vsem, obind_some] at hv ⊢
    obtain ⟨xs, hxs, hv⟩ := hv
    exact ⟨xs, hL ns (fun n hn r hr v hv => ih n hn r hr v hv) rs hrs xs hxs, hv⟩
  | branch c a b h1 h2 h3 =>
    simp only [replaceUndefined, bind_ok, ok_inj] at h
    obtain ⟨c', hc, a', ha, b', hb, rfl⟩ := h
    simp only [vsem, obind_some] at hv ⊢
    obtain ⟨x, hx, hv⟩ := hv
    refine ⟨x, h1 _ hc x hx, ?_⟩
    split at hv
    · rename_i hh; rw [if_pos hh]; exact h2 _ ha v hv
    · rename_i hh; rw [if_neg hh]; exact h3 _ hb v hv
  | psel w m l h1 h2 h3 =>
    simp only [replaceUndefined, bind_ok, ok_inj] at h
    obtain ⟨m', hm, l', hl, w', hw, rfl⟩ := h
    simp only [vsem.eq_5, obind_some, Fits.base hF, sub_zero] at hv ⊢
    obtain ⟨x, hx, mv, hmv, lv, hlv, hv⟩ := hv
    exact ⟨x, h1 _ hw x hx, mv, h2 _ hm mv hmv, lv, h3 _ hl lv hlv, hv⟩
  | ptr w i h1 h2 =>
    simp only [replaceUndefined, bind_ok, ok_inj] at h
    obtain ⟨i', hi, w', hw, rfl⟩ := h
    rw [vsem_ptr, obind_some] at hv ⊢
    obtain ⟨iv, hiv, hv⟩ := hv
    refine ⟨iv, h2 _ hi iv hiv, ?_⟩
    by_cases ht : ∃ n, w = .term n
    · obtain ⟨n, rfl⟩ := ht
      simp only [replaceUndefined, ok_inj] at hw
      subst hw; exact hv
    · rw [vptr_plain (fun n e => absurd ⟨n, e⟩ ht), obind_some] at hv
      obtain ⟨x, hx, hv⟩ := hv
      have hx' := h1 _ hw x hx
      rw [vptr_plain, obind_some]
      · exact ⟨x, hx', by simpa only [Fits.base hF] using hv⟩
      · rintro n rfl
        refine hF.plain n (fun ha => ?_)
        simp [vsem, (hF.array n ha).1] at hx'
  | none | undef w => simp [vsem] at hv
  | _ => simp only [replaceUndefined, ok_inj] at h <;> first | (subst h; exact hv) | simp at h

/-- **C55**: in every valuation in which the driven signals have the values of their trees, the tree returned by
`walkBind(x, step)` has the value of the tree of `x` (whenever that has a value).  For `step = 0` this is required of
the signals driven outside clocked always blocks only; for other steps of the registers too (steady states). -/
theorem C55_walk_value_partial (S : MergeEnv) (ρ : VEnv) (step : Int) (hF : S.Fits ρ) (hS : S.Settled ρ step) (k : Nat)
    (x : ScopeChain) (t r : DF) (ht : S.getTree x .none = .ok t) (h : S.walkBind k x step = .ok r) (v : Int × Int)
    (hv : vsem ρ t = some v) : vsem ρ r = some v := by
  unfold MergeEnv.walkBind at h
  simp only [bind_ok, ht, ok_inj] at h
  obtain ⟨_, _, g, rfl, w, hw, h⟩ := h
  exact replace_vsem hF x w r h v (walk_value hF k [] step false .none t w hS hw v hv)

/-! ### witnesses -/

def c55t (c : Char) (ts : List TermType) (m l : Char) : ScopeChain × Term := (c33n c, ⟨c33n c, ts, .intc [m], .intc [l], none⟩)
def c55v (c : Char) : DF := .term (c33n c)
/-- `wire [3:0] y = a[5:2]; wire [2:0] x = {y[1:0], r[0]}; always @(posedge k) r <= x` with `input [7:0] a`. -/
def c55binds : Dict ScopeChain (List Bind) :=
  [c33b 'x' (.concat [.psel (c55v 'y') (.intc ['1']) (.intc ['0']), .ptr (c55v 'r') (.intc ['0'])]) none,
   c33b 'y' (.psel (c55v 'a') (.intc ['5']) (.intc ['2'])) none,
   c33b 'r' (c55v 'x') c33clk]
def c55terms : Dict ScopeChain Term :=
  [c55t 'x' [.wire] '2' '0', c55t 'y' [.wire] '3' '0', c55t 'a' [.input] '7' '0', c55t 'r' [.reg] '3' '0']
def c55env (terms : Dict ScopeChain Term) (binds : Dict ScopeChain (List Bind)) : MergeEnv :=
  mergeEnvOf ⟨terms, [], 32, fun _ => none⟩ 20 1 binds binds
def c55ρ (vals : Dict ScopeChain (Int × Int)) : VEnv where
  sig := vals.get?
  arr _ := none
  dw := 32
  lo _ := 0

theorem c55fits {terms : Dict ScopeChain Term} {binds : Dict ScopeChain (List Bind)} {vals : Dict ScopeChain (Int × Int)}
    (h1 : ∀ p ∈ terms, p.2.dims.isSome = false) (h2 : ∀ p ∈ terms, p.2.lsb.evalInt = .ok 0) :
    (c55env terms binds).Fits (c55ρ vals) := by
  have hna : ∀ n, ¬ (c55env terms binds).IsArray n := by
    rintro n ⟨t, ht, hd⟩
    rw [h1 _ (Dict.mem_of_get? ht)] at hd
    cases hd
  refine ⟨fun n h => absurd h (hna n), fun _ _ => rfl, fun _ => rfl, fun p hp c hc => ?_⟩
  rw [h2 p hp, ok_inj] at hc
  exact hc.symm

/-- `a = 180, y = 13, r = 5, x = 3`. -/
def c55vals : Dict ScopeChain (Int × Int) := [(c33n 'a', (180, 8)), (c33n 'y', (13, 4)), (c33n 'r', (5, 4)), (c33n 'x', (3, 3))]

theorem c55settled : (c55env c55terms c55binds).Settled (c55ρ c55vals) 0 := by
  constructor
  · intro n hin hc ha t ht v hv
    have hm : (n, v) ∈ c55vals := Dict.mem_of_get? hv
    simp only [c55vals, List.mem_cons, List.not_mem_nil, or_false, Prod.mk.injEq] at hm
    rcases hm with ⟨rfl, rfl⟩ | ⟨rfl, rfl⟩ | ⟨rfl, rfl⟩ | ⟨rfl, rfl⟩
    · exact absurd ⟨rfl, _, rfl, by decide⟩ hin
    · have : (c55env c55terms c55binds).getTree (c33n 'y') .none =
          .ok (.psel (c55v 'a') (.ev (.int 5) (some 32) false false) (.ev (.int 2) (some 32) false false)) := by decide +kernel
      rw [this, ok_inj] at ht; subst ht; decide +kernel
    · exact absurd rfl (hc ((clocked_iff (t := (c55t 'r' [.reg] '3' '0').2) rfl).mp (by decide)))
    · have : (c55env c55terms c55binds).getTree (c33n 'x') .none =
          .ok (.concat [.psel (c55v 'y') (.ev (.int 1) (some 32) false false) (.ev (.int 0) (some 32) false false),
            .ptr (c55v 'r') (.ev (.int 0) (some 32) false false)]) := by decide +kernel
      rw [this, ok_inj] at ht; subst ht; decide +kernel
  · intro n _ _ ha
    exact absurd ha (by
      rintro ⟨t, ht, hd⟩
      have h1 : ∀ p ∈ c55terms, p.2.dims.isSome = false := by decide
      rw [h1 _ (Dict.mem_of_get? ht)] at hd
      cases hd)

/-- Non-vacuity of C55: the nested part selects `a[5:2][1:0]` become `a[3:2]`; the value stays 3. -/
example : (c55env c55terms c55binds).Fits (c55ρ c55vals) ∧ (c55env c55terms c55binds).Settled (c55ρ c55vals) 0 ∧
    (c55env c55terms c55binds).walkBind 20 (c33n 'x') 0 =
      .ok (.concat [.psel (c55v 'a') (.intc ['3']) (.intc ['2']), .ptr (c55v 'r') (.ev (.int 0) (some 32) false false)]) ∧
    vsem (c55ρ c55vals) (.concat [.psel (c55v 'a') (.intc ['3']) (.intc ['2']), .ptr (c55v 'r') (.ev (.int 0) (some 32) false false)]) =
      some (3, 3) := by
  refine ⟨c55fits (by decide) (by decide), c55settled, by decide +kernel, by decide +kernel⟩

/-- C55 is FALSE when a signal is driven by a narrower expression: with `input [3:0] a; wire [7:0] y = a` the
concatenation `x = {c, y}` is walked to `{c, a}`, which has 4 bits less.  In the valuation `a = y = 9`, `c = 1` (`y`
holds the zero-extended value of `a`) the value changes from 265 to 25. -/
theorem C55_width_false :
    let S := c55env [c55t 'x' [.wire] '8' '0', c55t 'y' [.wire] '7' '0', c55t 'a' [.input] '3' '0', c55t 'c' [.input] '0' '0']
      [c33b 'x' (.concat [c55v 'c', c55v 'y']) none, c33b 'y' (c55v 'a') none]
    let ρ := c55ρ [(c33n 'a', (9, 4)), (c33n 'y', (9, 8)), (c33n 'c', (1, 1))]
    ∃ t r, S.getTree (c33n 'x') .none = .ok t ∧ S.walkBind 20 (c33n 'x') 0 = .ok r ∧
      vsem ρ t = some (265, 9) ∧ vsem ρ r = some (25, 5) := by
  refine ⟨.concat [c55v 'c', c55v 'y'], .concat [c55v 'c', c55v 'a'], by decide +kernel, by decide +kernel, by decide +kernel,
    by decide +kernel⟩

/-- C55 is FALSE for aliases with another declared range: with `input [3:0] a; wire [5:2] y = a` the part select
`x = y[3:2]` (the two low bits) is walked to `a[3:2]` (the two high bits). -/
theorem C55_declared_range_false :
    let S := c55env [c55t 'x' [.wire] '1' '0', c55t 'y' [.wire] '5' '2', c55t 'a' [.input] '3' '0']
      [c33b 'x' (.psel (c55v 'y') (.intc ['3']) (.intc ['2'])) none, c33b 'y' (c55v 'a') none]
    let ρ : VEnv := { c55ρ [(c33n 'a', (9, 4)), (c33n 'y', (9, 4))] with lo := fun n => if n = c33n 'y' then 2 else 0 }
    ∃ t r, S.getTree (c33n 'x') .none = .ok t ∧ S.walkBind 20 (c33n 'x') 0 = .ok r ∧
      vsem ρ t = some (1, 2) ∧ vsem ρ r = some (2, 2) := by
  refine ⟨.psel (c55v 'y') (.ev (.int 3) (some 32) false false) (.ev (.int 2) (some 32) false false),
    .psel (c55v 'a') (.ev (.int 3) (some 32) false false) (.ev (.int 2) (some 32) false false),
    by decide +kernel, by decide +kernel, by decide +kernel, by decide +kernel⟩

/-- C55 is FALSE for undriven signals: with `wire y` never assigned, `x = y + 1` is walked to `x + 1`. -/
theorem C55_undriven_false :
    let S := c55env [c55t 'x' [.wire] '3' '0', c55t 'y' [.wire] '3' '0']
      [c33b 'x' (.op .plus [c55v 'y', .intc ['1']]) none]
    let ρ := c55ρ [(c33n 'y', (4, 4)), (c33n 'x', (5, 4))]
    ∃ t r, S.getTree (c33n 'x') .none = .ok t ∧ S.walkBind 20 (c33n 'x') 0 = .ok r ∧
      vsem ρ t = some (5, 32) ∧ vsem ρ r = some (6, 32) := by
  refine ⟨.op .plus [c55v 'y', .ev (.int 1) (some 32) false false], .op .plus [c55v 'x', .ev (.int 1) (some 32) false false],
    by decide +kernel, by decide +kernel, by decide +kernel, by decide +kernel⟩

end Pyv
