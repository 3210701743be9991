import Verif.DstSpec
import Verif.Props.NbModule
/-
  C67: an assignment is recorded for exactly the bits its left side designates.
-/
namespace Pyv

/-- What a name refers to. -/
def BV.resD (s : BV) (scope : ScopeChain) (n : Str) : Option ScopeChain :=
  match s.searchTerminal n scope with | .ok r => r | .error _ => none

/-- Is the signal an array? -/
def BV.arrD (s : BV) (c : ScopeChain) : Bool :=
  match s.terms.get? c with | some t => t.dims.isSome | none => false

/-- The index expressions keep their values through conversion and optimisation (C57, C07, C09). -/
def IndexSound (s : BV) (scope : ScopeChain) (ρ : Env) (val : Ex → Option Int) : Prop :=
  ∀ e t u v, s.makeDF e scope = .ok t → s.opt t = .ok u → val e = some v → ∃ w, sem ρ u = some (v, w)

/-- The tree of an index has this value; a missing index is None. -/
def IsVal (ρ : Env) (t : DF) : Option Int → Prop
  | none => t = .none
  | some v => ∃ w, sem ρ t = some (v, w)

/-- A recorded destination denotes a target: the whole signal is recorded without bounds, or with its declared ones. -/
def Denotes (s : BV) (ρ : Env) (d : Dst) (t : Target) : Prop :=
  d.name = some t.sig ∧ IsVal ρ d.ptr t.elem ∧
  match t.bits with
  | some (m, l) => IsVal ρ d.msb (some m) ∧ IsVal ρ d.lsb (some l)
  | none => (d.msb = .none ∧ d.lsb = .none) ∨ ∃ tm, s.terms.get? t.sig = some tm ∧ d.msb = tm.msb ∧ d.lsb = tm.lsb

theorem isVal_ne {ρ : Env} {t : DF} {v : Int} (h : IsVal ρ t (some v)) : t ≠ .none := by
  rintro rfl; obtain ⟨w, h⟩ := h; simp [sem] at h

theorem resD_ok {s : BV} {scope : ScopeChain} {n : Str} {c : ScopeChain} (h : s.resD scope n = some c) :
    s.searchTerminal n scope = .ok (some c) := by
  unfold BV.resD at h
  split at h
  · next r hr => rw [hr, h]
  · simp at h

theorem arrD_of {s : BV} {c : ScopeChain} {b : Bool} (h : s.hasDims c = .ok b) : s.arrD c = b := by
  unfold BV.hasDims at h
  unfold BV.arrD
  split at h
  · cases h
  · next t ht => rw [ht]; simpa using h

/-- One destination; no bounds unless they are written. -/
theorem getDst_denotes {s : BV} {scope : ScopeChain} {ρ : Env} {val : Ex → Option Int} (hi : IndexSound s scope ρ val)
    (e : Ex) : ∀ d s' ts, s.getDst scope e = .ok (d, s') → targets val (s.resD scope) s.arrD e = some ts → (∀ es, e ≠ .concat es) →
    s' = s ∧ ∃ t, ts = [t] ∧ Denotes s ρ d t ∧ (t.bits = none → d.msb = .none ∧ d.lsb = .none) := by
  have hptr : ∀ n p d s' ts, s.getDst scope (.ptr (.ident [] n) p) = .ok (d, s') →
      targets val (s.resD scope) s.arrD (.ptr (.ident [] n) p) = some ts →
      s' = s ∧ ∃ c i, s.resD scope n = some c ∧ val p = some i ∧ d.name = some c ∧ 
        (if s.arrD c then ts = [⟨c, some i, none⟩] ∧ IsVal ρ d.ptr (some i) ∧ d.msb = .none ∧ d.lsb = .none
         else ts = [⟨c, none, some (i, i)⟩] ∧ d.ptr = .none ∧ IsVal ρ d.msb (some i) ∧ IsVal ρ d.lsb (some i)) := by
    intro n p d s' ts h ht
    simp only [targets, Option.bind_eq_bind, Option.bind_eq_some_iff, Option.some.injEq] at ht
    obtain ⟨c, hc, i, hv, rfl⟩ := ht
    simp only [BV.getDst, BV.dstName, resD_ok hc, ok_bind, if_true, bind_ok] at h
    obtain ⟨p', hp, p'', hp', a, ha, h⟩ := h
    simp only [ok_inj, Prod.mk.injEq] at h
    obtain ⟨rfl, rfl⟩ := h
    have hval := hi p p' p'' i hp hp' hv
    refine ⟨rfl, c, i, hc, hv, ?_, ?_⟩
    · split <;> rfl
    · rw [arrD_of ha]
      cases a
      · exact ⟨rfl, rfl, hval, hval⟩
      · exact ⟨rfl, hval, rfl, rfl⟩
  intro d s' ts h ht hnc
  unfold targets at ht
  split at ht
  · next n =>
    simp only [Option.bind_eq_bind, Option.bind_eq_some_iff, Option.some.injEq] at ht
    obtain ⟨c, hc, rfl⟩ := ht
    simp only [BV.getDst, resD_ok hc, ok_bind, if_true, ok_inj, Prod.mk.injEq] at h
    obtain ⟨rfl, rfl⟩ := h
    exact ⟨rfl, _, rfl, ⟨rfl, rfl, .inl ⟨rfl, rfl⟩⟩, fun _ => ⟨rfl, rfl⟩⟩
  · next n p =>
    have ht' : targets val (s.resD scope) s.arrD (.ptr (.ident [] n) p) = some ts := by simpa only [targets] using ht
    obtain ⟨rfl, c, i, _, _, hn, hx⟩ := hptr n p d s' ts h ht'
    split at hx
    · obtain ⟨rfl, h1, h2, h3⟩ := hx
      exact ⟨rfl, _, rfl, ⟨hn, h1, .inl ⟨h2, h3⟩⟩, fun _ => ⟨h2, h3⟩⟩
    · obtain ⟨rfl, h1, h2, h3⟩ := hx
      exact ⟨rfl, _, rfl, ⟨hn, h1, h2, h3⟩, fun h => by simp at h⟩
  · next n p q =>
    simp only [Option.bind_eq_bind, Option.bind_eq_some_iff] at ht
    obtain ⟨c, hc, i, hv, j, hj, ht⟩ := ht
    split at ht
    · next ha =>
      simp only [Option.some.injEq] at ht
      subst ht
      rw [BV.getDst] at h
      simp only [bind_ok] at h
      obtain ⟨⟨d0, s0⟩, h0, h⟩ := h
      have ht' : targets val (s.resD scope) s.arrD (.ptr (.ident [] n) p) = some [⟨c, some i, none⟩] := by
        simp [targets, hc, hv, ha]
      obtain ⟨rfl, c', i', hc', _, hn, hx⟩ := hptr n p d0 s0 _ h0 ht'
      rw [hc] at hc'; cases hc'
      rw [if_pos ha] at hx
      obtain ⟨_, h1, h2, h3⟩ := hx
      split at h
      · simp only [bind_ok, ok_inj, Prod.mk.injEq] at h
        obtain ⟨q', hq, q'', hq', rfl, rfl⟩ := h
        have hvq := hi q q' q'' j hq hq' hj
        have e : i' = i := by simp_all
        subst e
        exact ⟨rfl, _, rfl, ⟨hn, h1, hvq, hvq⟩, fun h => by simp at h⟩
      · cases h
    · cases ht
  · next n m l =>
    simp only [Option.bind_eq_bind, Option.bind_eq_some_iff, Option.some.injEq] at ht
    obtain ⟨c, hc, a, ha, b, hb, rfl⟩ := ht
    simp only [BV.getDst, BV.dstName, resD_ok hc, ok_bind, if_true, bind_ok, ok_inj, Prod.mk.injEq] at h
    obtain ⟨m', hm, m'', hm', l', hl, l'', hl', rfl, rfl⟩ := h
    exact ⟨rfl, _, rfl, ⟨rfl, rfl, hi m m' m'' a hm hm' ha, hi l l' l'' b hl hl' hb⟩, fun h => by simp at h⟩
  · next n p m l =>
    simp only [Option.bind_eq_bind, Option.bind_eq_some_iff] at ht
    obtain ⟨c, hc, i, hv, a, hva, b, hvb, ht⟩ := ht
    split at ht
    · next ha =>
      simp only [Option.some.injEq] at ht
      subst ht
      rw [BV.getDst] at h
      simp only [bind_ok] at h
      obtain ⟨⟨d0, s0⟩, h0, h⟩ := h
      have ht' : targets val (s.resD scope) s.arrD (.ptr (.ident [] n) p) = some [⟨c, some i, none⟩] := by
        simp [targets, hc, hv, ha]
      obtain ⟨rfl, c', i', hc', hv', hn, hx⟩ := hptr n p d0 s0 _ h0 ht'
      rw [hc] at hc'; cases hc'
      rw [hv] at hv'; cases hv'
      rw [if_pos ha] at hx
      obtain ⟨_, h1, h2, h3⟩ := hx
      split at h
      · simp only [bind_ok, ok_inj, Prod.mk.injEq] at h
        obtain ⟨m', hm, m'', hm', l', hl, l'', hl', rfl, rfl⟩ := h
        exact ⟨rfl, _, rfl, ⟨hn, h1, hi m m' m'' a hm hm' hva, hi l l' l'' b hl hl' hvb⟩, fun h => by simp at h⟩
      · cases h
    · cases ht
  · exact absurd rfl (hnc _)
  · cases ht

/-- A destination denotes a target and has bounds only if they are written. -/
def Denotes1 (s : BV) (ρ : Env) (d : Dst) (t : Target) : Prop :=
  Denotes s ρ d t ∧ (t.bits = none → d.msb = .none ∧ d.lsb = .none)

theorem getDsts_denotes {s : BV} {scope : ScopeChain} {ρ : Env} {val : Ex → Option Int} (hi : IndexSound s scope ρ val)
    (e : Ex) : ∀ ds s' ts, s.getDsts scope e = .ok (ds, s') → targets val (s.resD scope) s.arrD e = some ts →
    s' = s ∧ List.Forall₂ (Denotes1 s ρ) ds ts := by
  have hone : ∀ e, (∀ es, e ≠ .concat es) → ∀ ds s' ts, s.getDsts scope e = .ok (ds, s') →
      targets val (s.resD scope) s.arrD e = some ts → s' = s ∧ List.Forall₂ (Denotes1 s ρ) ds ts := by
    intro e hne ds s' ts h ht
    have h' : (do let (d, s') ← s.getDst scope e; .ok ([d], s') : Py (List Dst × BV)) = .ok (ds, s') := by
      cases e <;> first | exact absurd rfl (hne _) | simpa only [BV.getDsts] using h
    simp only [bind_ok, ok_inj, Prod.mk.injEq] at h'
    obtain ⟨⟨d, s0⟩, hd, rfl, rfl⟩ := h'
    obtain ⟨rfl, t, rfl, h1, h2⟩ := getDst_denotes hi e d s0 ts hd ht hne
    exact ⟨rfl, .cons ⟨h1, h2⟩ .nil⟩
  induction e using Ex.ind with
  | concat es ih =>
    intro ds s' ts h ht
    simp only [BV.getDsts] at h
    simp only [targets] at ht
    induction es generalizing ds s' ts with
    | nil =>
      simp only [BV.getDstsList, ok_inj, Prod.mk.injEq] at h
      simp only [targetsL, Option.some.injEq] at ht
      obtain ⟨rfl, rfl⟩ := h
      subst ht
      exact ⟨rfl, .nil⟩
    | cons e es ihes =>
      simp only [BV.getDstsList, bind_ok, ok_inj, Prod.mk.injEq] at h
      obtain ⟨⟨d1, s1⟩, h1, ⟨d2, s2⟩, h2, rfl, rfl⟩ := h
      simp only [targetsL, Option.bind_eq_bind, Option.bind_eq_some_iff, Option.some.injEq] at ht
      obtain ⟨t1, ht1, t2, ht2, rfl⟩ := ht
      obtain ⟨rfl, f1⟩ := ih e (by simp) d1 s1 t1 h1 ht1
      obtain ⟨rfl, f2⟩ := ihes (fun e he => ih e (by simp [he])) d2 s2 t2 h2 ht2
      exact ⟨rfl, List.rel_append f1 f2⟩
  | _ => exact hone _ (by simp)

/-- The declared bounds of the signals have these values. -/
def DeclOK (s : BV) (ρ : Env) (decl : ScopeChain → Option (Int × Int)) : Prop :=
  ∀ c tm r, s.terms.get? c = some tm → decl c = some r → (∃ w, sem ρ tm.msb = some (r.1, w)) ∧ ∃ w, sem ρ tm.lsb = some (r.2, w)

theorem sem_minus {ρ : Env} {a b : DF} {x y v w : Int} (h1 : sem ρ a = some (x, v)) (h2 : sem ρ b = some (y, w)) :
    ∃ u, sem ρ (.op .minus [a, b]) = some (x - y, u) := by
  simp [sem, semList, h1, h2, opSem]
theorem sem_plus {ρ : Env} {a b : DF} {x y v w : Int} (h1 : sem ρ a = some (x, v)) (h2 : sem ρ b = some (y, w)) :
    ∃ u, sem ρ (.op .plus [a, b]) = some (x + y, u) := by
  simp [sem, semList, h1, h2, opSem]

theorem mkOp_eq {o : Op} {ns : List DF} {t : DF} (h : DF.mkOp o ns = .ok t) : t = .op o ns := by
  unfold DF.mkOp at h
  split at h
  · cases h
  · simpa using h.symm

/-- A destination with its slice. -/
def Takes (ρ : Env) (d : PDst) (r : Int × Int) : Prop := IsVal ρ d.pmsb (some r.1) ∧ IsVal ρ d.plsb (some r.2)

theorem sem_one (ρ : Env) : sem ρ (.intc ['1']) = some (1, 32) := by
  have h1 : intConstEval ['1'] = .ok 1 := by decide +kernel
  have h2 : intConstWidth ['1'] = .ok 32 := by decide +kernel
  simp [sem, h1, h2]

theorem sem_zero (ρ : Env) : sem ρ (.intc ['0']) = some (0, 32) := by
  have h1 : intConstEval ['0'] = .ok 0 := by decide +kernel
  have h2 : intConstWidth ['0'] = .ok 32 := by decide +kernel
  simp [sem, h1, h2]

/-- The bounds that a destination of a concatenation gets. -/
theorem part_bounds {s : BV} {ρ : Env} {d : Dst} {t : Target} {m l : DF} (hdt : Denotes1 s ρ d t)
    (hml : (if d.msb = .none ∧ d.lsb = .none then
        match d.name.bind s.terms.get? with
        | none => .error .attribute
        | some t => .ok (t.msb, t.lsb)
      else .ok (d.msb, d.lsb) : Py (DF × DF)) = .ok (m, l)) :
    Denotes s ρ ⟨d.name, m, l, d.ptr⟩ t ∧ ∀ decl, DeclOK s ρ decl → ∀ r, Target.range decl t = some r →
      IsVal ρ m (some r.1) ∧ IsVal ρ l (some r.2) := by
  obtain ⟨⟨e1, e2, e3⟩, e4⟩ := hdt
  cases hb : t.bits with
  | some r =>
    obtain ⟨a, b⟩ := r
    rw [hb] at e3
    simp only at e3
    have hne := isVal_ne e3.1
    rw [if_neg (by simp [hne])] at hml
    simp only [ok_inj, Prod.mk.injEq] at hml
    obtain ⟨rfl, rfl⟩ := hml
    refine ⟨⟨e1, e2, by rw [hb]; exact e3⟩, fun decl _ r hr => ?_⟩
    simp only [Target.range, hb, Option.some.injEq] at hr
    subst hr
    exact e3
  | none =>
    obtain ⟨f1, f2⟩ := e4 hb
    rw [if_pos ⟨f1, f2⟩, e1] at hml
    simp only [Option.bind_some] at hml
    split at hml
    · cases hml
    · next tm htm =>
      simp only [ok_inj, Prod.mk.injEq] at hml
      obtain ⟨rfl, rfl⟩ := hml
      refine ⟨⟨e1, e2, by rw [hb]; exact .inr ⟨tm, htm, rfl, rfl⟩⟩, fun decl hd r hr => ?_⟩
      simp only [Target.range, hb] at hr
      exact hd t.sig tm r htm hr

theorem parts_denote {s : BV} {ρ : Env} (ds : List Dst) : ∀ (ts : List Target) (off : DF) (ps : List PDst),
    List.Forall₂ (Denotes1 s ρ) ds ts → s.parts off ds = .ok ps →
    List.Forall₂ (fun (p : PDst) t => Denotes s ρ p.toDst t ∧ ∀ decl, DeclOK s ρ decl → ∀ r, Target.range decl t = some r →
      IsVal ρ p.msb (some r.1) ∧ IsVal ρ p.lsb (some r.2)) ps ts := by
  induction ds with
  | nil =>
    intro ts off ps hf h
    cases hf
    simp only [BV.parts, ok_inj] at h
    subst h
    exact .nil
  | cons d ds ih =>
    intro ts off ps hf h
    cases hf with
    | @cons _ t _ ts hdt hf =>
      simp only [BV.parts, bind_ok] at h
      obtain ⟨⟨m, l⟩, hml, df0, h0, diff, h1, pm0, h2, pm, h3, of0, h4, of, h5, rest, h6, h⟩ := h
      simp only [ok_inj] at h
      subst h
      exact .cons (part_bounds hdt hml) (ih ts of rest hf h6)

theorem parts_slices {s : BV} {ρ : Env} (ha : ArraysOK ρ) {decl : ScopeChain → Option (Int × Int)} (hd : DeclOK s ρ decl)
    (ds : List Dst) : ∀ (ts : List Target) (off : DF) (o : Int) (ps : List PDst), (∃ w, sem ρ off = some (o, w)) →
    List.Forall₂ (Denotes1 s ρ) ds ts → s.parts off ds = .ok ps →
    ∀ rs, List.Forall₂ (fun t r => Target.range decl t = some r) ts rs → List.Forall₂ (Takes ρ) ps (slices o rs) := by
  induction ds with
  | nil =>
    intro ts off o ps _ hf h
    cases hf
    simp only [BV.parts, ok_inj] at h
    subst h
    exact fun rs hr => by cases hr; exact .nil
  | cons d ds ih =>
    intro ts off o ps ho hf h
    cases hf with
    | @cons _ t _ ts hdt hf =>
      simp only [BV.parts, bind_ok] at h
      obtain ⟨⟨m, l⟩, hml, df0, h0, diff, h1, pm0, h2, pm, h3, of0, h4, of, h5, rest, h6, h⟩ := h
      simp only [ok_inj] at h
      subst h
      have := mkOp_eq h0; subst this
      have := mkOp_eq h2; subst this
      have := mkOp_eq h4; subst this
      intro rs hr
      cases hr with
      | @cons _ r _ rs hr hrs =>
        obtain ⟨⟨w1, hm⟩, ⟨w2, hl⟩⟩ := (part_bounds hdt hml).2 decl hd r hr
        obtain ⟨w0, ho⟩ := ho
        obtain ⟨u1, g1⟩ := sem_minus hm hl
        have g1' := C14_reorder_value ρ ha _ _ _ h1 _ g1
        obtain ⟨u2, g2⟩ := sem_plus ho g1'
        have g2' := C14_reorder_value ρ ha _ _ _ h3 _ g2
        obtain ⟨u3, g3⟩ := sem_plus g2' (sem_one ρ)
        have g3' := C14_reorder_value ρ ha _ _ _ h5 _ g3
        exact .cons ⟨⟨_, g2'⟩, ⟨_, ho⟩⟩ (ih ts of _ rest ⟨_, g3'⟩ hf h6 rs hrs)

end Pyv
