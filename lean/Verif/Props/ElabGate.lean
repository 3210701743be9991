import Verif.Props.ElabInst
/-
  C75, C77: the gate primitives.
-/
namespace Pyv

/-! ### Bits -/

theorem ibit_concat (bs : List Bool) : ∀ (a : Int) (w : Int), 0 ≤ w →
    ∃ v, (bs.map (fun b => (b2i b, (1 : Int)))).foldl (fun acc x => do
      let a ← acc
      if x.2 < 0 then none else some (a.1 * 2 ^ x.2.toNat + x.1 % 2 ^ x.2.toNat, a.2 + x.2)) (some (a, w)) = some (v, w + bs.length) ∧
      (∀ i, i < bs.length → ibit v i = bs.reverse.getD i false) ∧ ∀ i, ibit v (i + bs.length) = ibit a i := by
  induction bs with
  | nil => intro a w _; exact ⟨a, by simp, by simp, by simp⟩
  | cons b bs ih =>
    intro a w hw
    have hb : (b2i b : Int) % 2 = b2i b := by cases b <;> rfl
    obtain ⟨v, h1, h2, h3⟩ := ih (a * 2 + b2i b) (w + 1) (by omega)
    refine ⟨v, ?_, ?_, ?_⟩
    · simp only [List.map_cons, List.foldl_cons, List.length_cons, Nat.cast_add, Nat.cast_one]
      have : w + ((bs.length : Int) + 1) = w + 1 + bs.length := by omega
      rw [this, ← h1]
      congr 1
      simp [hb]
    · intro i hi
      rw [List.length_cons] at hi
      rcases Nat.lt_or_ge i bs.length with hl | hl
      · rw [h2 i hl]
        rw [List.reverse_cons, List.getD_append _ _ _ _ (by simpa using hl)]
      · have hi' : i = bs.length := by omega
        subst hi'
        have := h3 0
        rw [Nat.zero_add] at this
        rw [this]
        simp only [List.reverse_cons, ibit, pow_zero, Int.ediv_one]
        rw [List.getD_append_right _ _ _ _ (by simp)]
        cases b <;> simp [b2i] <;> omega
    · intro i
      have := h3 (i + 1)
      rw [List.length_cons, show i + (bs.length + 1) = i + 1 + bs.length by omega, this]
      simp only [ibit]
      congr 2
      rw [pow_succ, mul_comm (2 ^ i) 2, ← Int.ediv_ediv_of_nonneg (by omega)]
      have : (a * 2 + b2i b) / 2 = a := by cases b <;> simp only [b2i, if_true, Bool.false_eq_true, if_false] <;> omega
      rw [this]

/-- The bits of a concatenation of bits. -/
theorem concat_bits (bs : List Bool) : ∃ v, concatVal (bs.map (fun b => (b2i b, (1 : Int)))) = some (v, (bs.length : Int)) ∧
    (List.range bs.length).map (ibit v) = bs.reverse := by
  obtain ⟨v, h1, h2, -⟩ := ibit_concat bs 0 0 le_rfl
  refine ⟨v, by rw [concatVal, h1, zero_add], ?_⟩
  apply List.ext_getElem
  · simp
  · intro i hi hi'
    simp only [List.length_map, List.length_range] at hi
    rw [List.getElem_map, List.getElem_range, h2 i hi, List.getD_eq_getElem]

theorem all_bits {bs : List Bool} {v : Int} (h : (List.range bs.length).map (ibit v) = bs.reverse) :
    (∀ i < bs.length, ibit v i = true) ↔ bs.all id = true := by
  rw [← List.all_reverse, ← h]
  simp [List.all_eq_true]

theorem any_bits {bs : List Bool} {v : Int} (h : (List.range bs.length).map (ibit v) = bs.reverse) :
    (∃ i < bs.length, ibit v i = true) ↔ bs.any id = true := by
  rw [← List.any_reverse, ← h]
  simp [List.any_eq_true]

theorem count_bits {bs : List Bool} {v : Int} (h : (List.range bs.length).map (ibit v) = bs.reverse) :
    popcount v bs.length = bs.count true := by
  rw [← List.count_reverse, ← h, popcount, List.count, List.countP_map]
  congr 1
  funext i
  simp

/-! ### Gates -/

section
variable {ρ : Env} {res : Str → Option ScopeChain}

/-- The least significant bit. -/
theorem bit0_val (hρ : ∀ c, ρ.arr c = none) {e : Ex} {x : Int × Int} (h : exVal ρ res e = some x) :
    exVal ρ res (.ptr e (.intc ['0'])) = some (b2i (ibit x.1 0), 1) := by
  have h0 : sem ρ (.intc ['0']) = some (0, 32) := rfl
  simp only [exVal, h0, Option.bind_eq_bind, Option.bind_some]
  have hn : ∀ o : Option ScopeChain, o.bind ρ.arr = none := by intro o; cases o <;> simp [hρ]
  simp only [indexVal, hn, h, Option.bind_eq_bind, Option.bind_some, bitVal, lt_irrefl, if_false, Int.toNat_zero, pow_zero,
    Int.ediv_one, ibit]
  rcases Int.emod_two_eq x.1 with e | e <;> simp [e, b2i]

theorem bits_val (hρ : ∀ c, ρ.arr c = none) (es : List Ex) : ∀ {xs : List (Int × Int)}, exValL ρ res es = some xs →
    exValL ρ res (es.map (fun e => .ptr e (.intc ['0']))) = some ((xs.map (fun v => ibit v.1 0)).map (fun b => (b2i b, (1 : Int)))) := by
  induction es with
  | nil => intro xs h; simp only [exValL, Option.some.injEq] at h; subst h; rfl
  | cons e es ih =>
    intro xs h
    simp only [exValL, Option.bind_eq_bind, Option.bind_eq_some_iff, Option.some.injEq] at h
    obtain ⟨x, hx, ys, hy, rfl⟩ := h
    simp only [List.map_cons, exValL, bit0_val hρ hx, ih hy, Option.bind_eq_bind, Option.bind_some]

/-- A gate with a list of inputs as an expression. -/
theorem reduce_val (hρ : ∀ c, ρ.arr c = none) {es : List Ex} {xs : List (Int × Int)} (h : exValL ρ res es = some xs) {o : Op} {b : Bool}
    (ho : ∀ v, (List.range xs.length).map (ibit v) = (xs.map (fun v => ibit v.1 0)).reverse → opSem o [v] xs.length = some (b2i b))
    (hw : o.maxRule = false ∧ o.leftRule = false) :
    exVal ρ res (.un o (.concat (es.map (fun e => .ptr e (.intc ['0']))))) = some (b2i b, 1) := by
  obtain ⟨v, h1, h2⟩ := concat_bits (xs.map (fun v => ibit v.1 0))
  rw [List.length_map] at h1 h2
  simp only [exVal, bits_val hρ es h, h1, Option.bind_eq_bind, Option.bind_some, maxWidth, List.foldl_cons, List.foldl_nil]
  have : (max (0 : Int) xs.length).toNat = xs.length := by omega
  rw [this, ho v h2]
  simp [opWidth, hw.1, hw.2]

end

theorem gate_prim {md : Str} : (primitiveOf md).isSome = true ↔ md ∈ gateNames := by
  constructor
  · intro h
    unfold primitiveOf at h
    by_contra hn
    simp only [gateNames, List.map_cons, List.map_nil, List.mem_cons, List.not_mem_nil, or_false, not_or] at hn
    obtain ⟨h1, h2, h3, h4, h5, h6, h7, h8⟩ := hn
    rw [if_neg h1, if_neg h2, if_neg h3, if_neg h4, if_neg h5, if_neg h6, if_neg h7, if_neg h8] at h
    cases h
  · intro h
    simp only [gateNames, List.map_cons, List.map_nil, List.mem_cons, List.not_mem_nil, or_false] at h
    rcases h with rfl | rfl | rfl | rfl | rfl | rfl | rfl | rfl <;> rfl

theorem not_gate {md : Str} (h : md ∉ gateNames) : primitiveOf md = none := by
  cases hp : primitiveOf md with
  | none => rfl
  | some o => exact absurd (gate_prim.mp (by rw [hp]; rfl)) h

/-- The expression of a gate. -/
def gateEx (o : Option Op) (es : List Ex) : Ex :=
  match o, es with
  | none, e :: _ => .ptr e (.intc ['0'])
  | some .unot, e :: _ => .un .ulnot (.ptr e (.intc ['0']))
  | none, [] => .concat []
  | some o, es => .un o (.concat (es.map (fun e => .ptr e (.intc ['0']))))

theorem gateEx_val {ρ : Env} {res : Str → Option ScopeChain} (hρ : ∀ c, ρ.arr c = none) {name : Str} (hg : name ∈ gateNames) {o : Option Op}
    (ho : primitiveOf name = some o) {es : List Ex} (hl : name = "not".toList ∨ name = "buf".toList → es.length = 1)
    {vs : List (Int × Int)} (h : exValL ρ res es = some vs) :
    exVal ρ res (gateEx o es) = some (b2i (gateFn name (vs.map (fun v => ibit v.1 0))), 1) := by
  have hlen : ∀ (es : List Ex) (vs : List (Int × Int)), exValL ρ res es = some vs → vs.length = es.length := by
    intro es
    induction es with
    | nil => intro vs h; simp only [exValL, Option.some.injEq] at h; subst h; rfl
    | cons e es ih =>
      intro vs h
      simp only [exValL, Option.bind_eq_bind, Option.bind_eq_some_iff, Option.some.injEq] at h
      obtain ⟨x, hx, ys, hy, rfl⟩ := h
      simp [ih ys hy]
  have one : ∀ {e : Ex}, es = [e] → ∃ x, vs = [x] ∧ exVal ρ res e = some x := by
    rintro e rfl
    simp only [exValL, Option.bind_eq_bind, Option.bind_eq_some_iff, Option.some.injEq] at h
    obtain ⟨x, hx, ys, rfl, rfl⟩ := h
    exact ⟨x, rfl, hx⟩
  have hl' : (vs.map (fun v => ibit v.1 0)).length = vs.length := List.length_map ..
  simp only [gateNames, List.map_cons, List.map_nil, List.mem_cons, List.not_mem_nil, or_false] at hg
  rcases hg with rfl | rfl | rfl | rfl | rfl | rfl | rfl | rfl <;> cases ho
  · refine reduce_val hρ h (fun v hv => ?_) ⟨rfl, rfl⟩
    rw [← hl'] at hv ⊢
    simp only [opSem, all_bits hv]
    simp [gateFn]
  · refine reduce_val hρ h (fun v hv => ?_) ⟨rfl, rfl⟩
    rw [← hl'] at hv ⊢
    simp only [opSem, all_bits hv]
    simp [gateFn]
  · refine reduce_val hρ h (fun v hv => ?_) ⟨rfl, rfl⟩
    rw [← hl'] at hv ⊢
    simp only [opSem, any_bits hv]
    simp [gateFn]
  · refine reduce_val hρ h (fun v hv => ?_) ⟨rfl, rfl⟩
    rw [← hl'] at hv ⊢
    simp only [opSem, any_bits hv]
    simp [gateFn]
  · refine reduce_val hρ h (fun v hv => ?_) ⟨rfl, rfl⟩
    rw [← hl'] at hv ⊢
    simp only [opSem, count_bits hv]
    simp [gateFn]
  · refine reduce_val hρ h (fun v hv => ?_) ⟨rfl, rfl⟩
    rw [← hl'] at hv ⊢
    simp only [opSem, count_bits hv]
    simp [gateFn]
  · obtain ⟨e, he⟩ := List.length_eq_one_iff.mp (hl (.inl rfl))
    obtain ⟨x, rfl, hx⟩ := one he
    subst he
    simp only [gateEx]
    rw [exVal]
    simp only [bit0_val hρ hx, Option.bind_eq_bind, Option.bind_some, opSem]
    cases hb : ibit x.1 0 <;> simp [hb, b2i, opWidth, Op.maxRule, Op.leftRule, gateFn]
  · obtain ⟨e, he⟩ := List.length_eq_one_iff.mp (hl (.inr rfl))
    obtain ⟨x, rfl, hx⟩ := one he
    subst he
    simp only [gateEx, bit0_val hρ hx]
    simp [gateFn]

section
variable {D : Decls} {c : ScopeChain} {m : ModuleDef} {over : List Str} {T : ModTable} {rec : BV → Str → Py BV} {md : Str} {ps : List PArg}

theorem prim_args (ins : List PArg) (h : ins.all (fun p => match p.arg with | some e => e.flat | none => false) = true) :
    (∀ e ∈ ins.filterMap PArg.arg, e.flat = true) ∧ ∃ es, ins.filterMap PArg.arg = es ∧ ins = ins.map (fun p => ⟨p.name, p.arg⟩) ∧
      ins.mapM (fun p => do
        let e ← p.prim
        (Except.ok (indexed e (some 0)) : Py Ex)) = .ok (es.map (fun e => .ptr e (.intc ['0']))) ∧ es.length = ins.length ∧
      ∀ p ps, ins = p :: ps → ∃ e es', es = e :: es' ∧ p.prim = .ok e := by
  induction ins with
  | nil => exact ⟨by simp, [], rfl, rfl, rfl, rfl, by simp⟩
  | cons p ins ih =>
    simp only [List.all_cons, Bool.and_eq_true] at h
    obtain ⟨h1, h2⟩ := h
    obtain ⟨i1, es, i2, i3, i4, i5, i6⟩ := ih h2
    cases ha : p.arg with
    | none => rw [ha] at h1; cases h1
    | some e =>
      rw [ha] at h1
      have hp : p.prim = .ok e := by simp [PArg.prim, ha]
      refine ⟨?_, e :: es, by simp [ha, i2], by simp, ?_, by simp [i5], ?_⟩
      · intro e' he'
        simp only [List.filterMap_cons, ha, List.mem_cons] at he'
        rcases he' with rfl | he'
        · exact h1
        · exact i1 e' he'
      · rw [List.mapM_cons, i4]
        simp only [hp, ok_bind, py_pure, List.map_cons]
        rfl
      · intro p' ps' he
        simp only [List.cons.injEq] at he
        obtain ⟨rfl, rfl⟩ := he
        exact ⟨e, es, rfl, hp⟩

/-- One gate. -/
theorem gate_does (hD : DesignOK D) (hm : (c, m.termTypes) ∈ D) (hg : md ∈ gateNames) {i : Inst} (hc : gateCovered m.names md i = true) :
    Does D c over (fun s => BV.visitInst T rec md ps s i) (gateEqns m c md i) := by
  obtain ⟨o, ho⟩ := Option.isSome_iff_exists.mp (gate_prim.mpr hg)
  simp only [gateCovered, Bool.and_eq_true, Option.isNone_iff_eq_none] at hc
  obtain ⟨harr, hc⟩ := hc
  intro s s' hI hfree hover h
  simp only [BV.visitInst, harr, BV.visitInstBody, ho] at h
  unfold gateEqns at hfree ⊢
  revert hc hfree h
  rcases i.ports with _ | ⟨⟨pn, pa⟩, ins⟩
  · intro hc; cases hc
  rcases pa with _ | pa
  · intro hc; cases hc
  cases pa
  case ident sc' y =>
    cases sc' with
    | cons a as => intro hc; cases hc
    | nil =>
      intro hc hfree h
      simp only [Bool.and_eq_true, decide_eq_true_eq, Bool.or_eq_true, Bool.not_eq_true', Bool.or_eq_false_iff, decide_eq_false_iff_not] at hc
      obtain ⟨⟨hy, hins⟩, hone⟩ := hc
      obtain ⟨hflat, es, he, -, hmap, hlen, hfirst⟩ := prim_args ins hins
      rw [he] at hflat
      have hflat' : (gateEx o es).flat = true := by
        have hL : Ex.flatL (es.map (fun e => Ex.ptr e (.intc ['0']))) = true := by
          rw [flatL_iff]
          intro e' he'
          obtain ⟨e, hee, rfl⟩ := List.mem_map.mp he'
          simp [Ex.flat, hflat e hee]
        unfold gateEx
        split
        · simp [Ex.flat, hflat]
        · simp [Ex.flat, hflat]
        · rfl
        · simpa [Ex.flat] using hL
      have hvis : s.visitAssign (.ident [] y) (gateEx o es) = .ok s' := by
        simp only [BV.visitPrimitive, bind_ok] at h
        obtain ⟨l, hl, r, hr, h⟩ := h
        simp only [PArg.prim, ok_inj] at hl
        subst hl
        have hr' : r = gateEx o es := by
          simp only [Option.getD_none] at hr
          have first : ∀ {r'}, (match ins with
              | [] => (Except.error PyErr.index : Py Ex)
              | i :: _ => do
                let e ← i.prim
                (Except.ok (indexed e (some 0)) : Py Ex)) = .ok r' → ∃ e es', es = e :: es' ∧ r' = .ptr e (.intc ['0']) := by
            intro r' hr'
            cases ins with
            | nil => cases hr'
            | cons p ins =>
              obtain ⟨e, es', rfl, hp⟩ := hfirst _ _ rfl
              simp only [hp, ok_bind, ok_inj] at hr'
              exact ⟨e, es', rfl, hr'.symm⟩
          cases o with
          | none =>
            obtain ⟨e, es', rfl, rfl⟩ := first (r' := r) (by cases ins <;> exact hr)
            rfl
          | some o =>
            by_cases hu : o = .unot
            · subst hu
              cases ins with
              | nil => cases hr
              | cons p ins =>
                simp only [bind_ok, ok_inj] at hr
                obtain ⟨r', hr1, rfl⟩ := hr
                obtain ⟨e, es', rfl, rfl⟩ := first (r' := r') (by simp only [bind_ok, ok_inj]; exact hr1)
                rfl
            · have hr2 : (do
                  let es ← ins.mapM (fun (p : PArg) => do
                    let e ← p.prim
                    (Except.ok (indexed e (some 0)) : Py Ex))
                  (Except.ok (.un o (.concat es)) : Py Ex)) = .ok r := by
                cases o <;> first | exact absurd rfl hu | (cases ins <;> exact hr)
              rw [hmap, ok_bind, ok_inj] at hr2
              rw [← hr2]
              cases o <;> first | exact absurd rfl hu | (cases es <;> rfl)
        rw [← hr']
        exact h
      have hone' : md = "not".toList ∨ md = "buf".toList → es.length = 1 := by
        intro hh
        rcases hone with ⟨h1, h2⟩ | h3
        · rcases hh with hh | hh
          · exact absurd hh h1
          · exact absurd hh h2
        · omega
      have o1 := assign_does (over := over) hD hm hy hflat' s s' hI (by
        intro q hq
        rw [List.mem_singleton] at hq
        subst hq
        exact hfree ⟨sigAt c y, c, m, .gate md (ins.filterMap PArg.arg)⟩ (List.mem_singleton.mpr rfl)) hover hvis
      refine ⟨o1.inv, o1.frames, fun x hx => o1.keep x (fun q hq => ?_), ?_⟩
      · rw [List.mem_singleton] at hq
        subst hq
        exact hx ⟨sigAt c y, c, m, .gate md (ins.filterMap PArg.arg)⟩ (List.mem_singleton.mpr rfl)
      · intro q hq
        rw [List.mem_singleton] at hq
        subst hq
        obtain ⟨b, b1, b2, b3, b4⟩ := o1.holds _ (List.mem_singleton.mpr rfl)
        refine ⟨b, b1, b2, b3, fun ρ hρ vs hvs => b4 ρ hρ _ ?_⟩
        rw [he] at hvs
        exact gateEx_val hρ hg ho hone' hvs
  all_goals (intro hc; cases hc)

end

end Pyv
