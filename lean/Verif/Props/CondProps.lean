import Verif.Props.OptTermsProps
import Verif.Sem
/-
  C09: hierarchical simplification preserves the truth of conditions.
-/
namespace Pyv

/-- How much of a tree's value its context observes: only whether it is nonzero, its value, or value and
width. -/
inductive Mode where
  | truth | value | width
  deriving DecidableEq

/-- `y` is as good as `x` for a context of the given mode. -/
def Mode.Rel : Mode → Int × Int → Int × Int → Prop
  | .truth, x, y => y.1 ≠ 0 ↔ x.1 ≠ 0
  | .value, x, y => y.1 = x.1
  | .width, x, y => y = x

/-- A signal or a constant. -/
def DF.rigid : DF → Bool
  | .term _ | .intc _ | .ev .. => true
  | _ => false

/-- A signal. -/
def DF.isTerm : DF → Bool
  | .term _ => true
  | _ => false

/-- Comparison operators. -/
def Op.cmp : Op → Bool
  | .lessThan | .greaterThan | .lessEq | .greaterEq | .eq | .notEq | .eql | .notEql => true
  | _ => false

/-- Operators whose operands' widths matter: `~`, reductions and xnor. -/
def Op.widthDep : Op → Bool
  | .unot | .uand | .unand | .uor | .unor | .uxor | .uxnor | .xnor => true
  | _ => false

/-- The mode in which the operands of an operator are observed, when the node is observed in mode `m`. -/
def Op.childMode (o : Op) (m : Mode) : Mode :=
  match o with
  | .land | .lor => .truth
  | .ulnot => if m = .value then .value else .truth
  | _ => if o.widthDep then .width else if o.cmp then .value
    else if m = .width then .width else .value

/-- May the operator occur in a place observed in mode `m`? -/
def Op.allowed (o : Op) (m : Mode) : Prop :=
  match o with
  | .land | .lor => m = .truth
  | .and | .or | .times | .divide => m ≠ .width
  | _ => True

mutual
/-- The condition trees for which C09 is claimed, in mode `m`.  Excluded are exactly the shapes on which the
code deviates or whose simplification (concatenations) is the subject of C11 and C12: logical and/or used as a
number, `&`, `|`, `*`, `/` where the width matters, `/` and `>>` of negative values, `~` of anything but a
one-bit signal or constant, `!` of a value other than 0 and 1 in a numeric position, concatenations, selects of
compound expressions. -/
def CFrag (ρ : Env) : Mode → DF → Prop
  | m, .op o ns => o.allowed m ∧ CFragList ρ (o.childMode m) ns ∧
      (o = .unot → ∀ n ∈ ns, n.rigid = true ∧ ∀ x, sem ρ n = some x → x.2 = 1 ∧ (x.1 = 0 ∨ x.1 = 1)) ∧
      (o = .ulnot → m = .value → ∀ n ∈ ns, ∀ x, sem ρ n = some x → x.1 = 0 ∨ x.1 = 1) ∧
      (o = .divide ∨ o = .srl → ∀ xs, semList ρ ns = some xs → ∀ x ∈ xs, 0 ≤ x.1)
  | _, .psel v m l => v.isTerm = true ∧ CFrag ρ .value m ∧ CFrag ρ .value l
  | _, .ptr v p => v.isTerm = true ∧ CFrag ρ .value p
  | _, .concat _ => False
  | m, .branch c t f => CFrag ρ .truth c ∧ CFrag ρ m t ∧ CFrag ρ m f
  | _, _ => True
/-- All trees of a list. -/
def CFragList (ρ : Env) : Mode → List DF → Prop
  | _, [] => True
  | m, n :: ns => CFrag ρ m n ∧ CFragList ρ m ns
end

/-- The valuation gives every signal a value that fits its declared width, and constants without width the
default one. -/
def Fits (ctx : OptCtx) (k : Nat) (ρ : Env) : Prop :=
  ρ.dw = ctx.defaultWidth ∧
  ∀ n w x, ctx.getWidth k (.term n) = .ok w → ρ.sig n = some x → x.2 = w ∧ 0 ≤ x.1 ∧ x.1 < 2 ^ w.toNat

/-- `math.log(v, 2)` is integral only on powers of two. -/
def Log2OK (ctx : OptCtx) : Prop := ∀ v p, ctx.log2 v = some p → 0 ≤ p ∧ v = 2 ^ p.toNat

/-! ### semantics of nodes -/

/-- The tree has a value. -/
def Defd (ρ : Env) (t : DF) : Prop := ∃ y, sem ρ t = some y
/-- The tree has a nonzero value. -/
def Tru (ρ : Env) (t : DF) : Prop := ∃ y, sem ρ t = some y ∧ y.1 ≠ 0

theorem tru_of {ρ t y} (h : sem ρ t = some y) : Tru ρ t ↔ y.1 ≠ 0 := by
  unfold Tru; constructor
  · rintro ⟨z, hz, h2⟩; rw [h] at hz; simp at hz; subst hz; exact h2
  · intro h2; exact ⟨y, h, h2⟩

theorem semList_cons' {ρ n ns xs} : semList ρ (n :: ns) = some xs ↔
    ∃ y ys, sem ρ n = some y ∧ semList ρ ns = some ys ∧ xs = y :: ys := by
  simp only [semList, obind_some]
  constructor
  · rintro ⟨y, hy, ys, hys, h⟩; simp at h; exact ⟨y, ys, hy, hys, h.symm⟩
  · rintro ⟨y, ys, hy, hys, rfl⟩; exact ⟨y, hy, ys, hys, rfl⟩

theorem semList_length {ρ ns xs} (h : semList ρ ns = some xs) : xs.length = ns.length := by
  induction ns generalizing xs with
  | nil => simp [semList] at h; subst h; rfl
  | cons n ns ih => obtain ⟨y, ys, _, h2, rfl⟩ := semList_cons'.mp h; simp [ih h2]

theorem sem_op {ρ o ns x} : sem ρ (.op o ns) = some x ↔ ∃ xs v, semList ρ ns = some xs ∧
    opSem o (xs.map (·.1)) (maxWidth (xs.map (·.2))).toNat = some v ∧ x = (v, opWidth o (xs.map (·.2))) := by
  simp only [sem, obind_some, Option.some.injEq]
  constructor
  · rintro ⟨xs, h1, v, h2, rfl⟩; exact ⟨xs, v, h1, h2, rfl⟩
  · rintro ⟨xs, v, h1, h2, rfl⟩; exact ⟨xs, h1, v, h2, rfl⟩

/-- Binary operators have two operands. -/
theorem opSem_binary {o : Op} {vs w v} (hb : o.unary = false) (h : opSem o vs w = some v) : ∃ x y, vs = [x, y] := by
  cases o <;> simp [Op.unary] at hb <;> rcases vs with _ | ⟨x, _ | ⟨y, _ | ⟨u, r⟩⟩⟩ <;> simp_all [opSem]

theorem opSem_unary {o : Op} {vs w v} (hb : o.unary = true) (h : opSem o vs w = some v) : ∃ x, vs = [x] := by
  cases o <;> simp [Op.unary] at hb <;> rcases vs with _ | ⟨x, _ | ⟨y, r⟩⟩ <;> simp_all [opSem]

theorem sem_op2 {ρ o a b rest x} (hb : o.unary = false) (h : sem ρ (.op o (a :: b :: rest)) = some x) :
    rest = [] ∧ ∃ xa xb v, sem ρ a = some xa ∧ sem ρ b = some xb ∧
      opSem o [xa.1, xb.1] (maxWidth [xa.2, xb.2]).toNat = some v ∧ x = (v, opWidth o [xa.2, xb.2]) := by
  obtain ⟨xs, v, h1, h2, rfl⟩ := sem_op.mp h
  obtain ⟨p, q, hpq⟩ := opSem_binary hb h2
  obtain ⟨xa, ys, ha, h3, rfl⟩ := semList_cons'.mp h1
  obtain ⟨xb, zs, hb', h4, rfl⟩ := semList_cons'.mp h3
  have : zs = [] := by
    cases zs with
    | nil => rfl
    | cons => simp at hpq
  subst this
  have := semList_length h4
  have hr : rest = [] := List.length_eq_zero_iff.mp this.symm
  exact ⟨hr, xa, xb, v, ha, hb', by simpa using h2, by simp⟩

theorem sem_op2_mk {ρ o a b xa xb v} (ha : sem ρ a = some xa) (hb : sem ρ b = some xb)
    (h : opSem o [xa.1, xb.1] (maxWidth [xa.2, xb.2]).toNat = some v) :
    sem ρ (.op o [a, b]) = some (v, opWidth o [xa.2, xb.2]) := by
  rw [sem_op]
  exact ⟨[xa, xb], v, semList_cons'.mpr ⟨_, _, ha, semList_cons'.mpr ⟨_, _, hb, rfl, rfl⟩, rfl⟩, h, rfl⟩

theorem sem_op1 {ρ o a rest x} (hb : o.unary = true) (h : sem ρ (.op o (a :: rest)) = some x) :
    rest = [] ∧ ∃ xa v, sem ρ a = some xa ∧
      opSem o [xa.1] (maxWidth [xa.2]).toNat = some v ∧ x = (v, opWidth o [xa.2]) := by
  obtain ⟨xs, v, h1, h2, rfl⟩ := sem_op.mp h
  obtain ⟨p, hp⟩ := opSem_unary hb h2
  obtain ⟨xa, ys, ha, h3, rfl⟩ := semList_cons'.mp h1
  have : ys = [] := by
    cases ys with
    | nil => rfl
    | cons => simp at hp
  subst this
  have hr : rest = [] := List.length_eq_zero_iff.mp (semList_length h3).symm
  exact ⟨hr, xa, v, ha, by simpa using h2, by simp⟩

theorem sem_op1_mk {ρ o a xa v} (ha : sem ρ a = some xa) (h : opSem o [xa.1] (maxWidth [xa.2]).toNat = some v) :
    sem ρ (.op o [a]) = some (v, opWidth o [xa.2]) := by
  rw [sem_op]
  exact ⟨[xa], v, semList_cons'.mpr ⟨_, _, ha, rfl, rfl⟩, h, rfl⟩

theorem b2i_ne (b : Bool) : b2i b ≠ 0 ↔ b = true := by cases b <;> simp [b2i]

theorem sem_land {ρ a b rest x} (h : sem ρ (.op .land (a :: b :: rest)) = some x) :
    rest = [] ∧ Defd ρ a ∧ Defd ρ b ∧ (x.1 ≠ 0 ↔ Tru ρ a ∧ Tru ρ b) := by
  obtain ⟨hr, xa, xb, v, ha, hb, hv, rfl⟩ := sem_op2 rfl h
  simp only [opSem, Option.some.injEq] at hv
  subst hv
  refine ⟨hr, ⟨_, ha⟩, ⟨_, hb⟩, ?_⟩
  rw [tru_of ha, tru_of hb, b2i_ne]
  simp

theorem sem_lor {ρ a b rest x} (h : sem ρ (.op .lor (a :: b :: rest)) = some x) :
    rest = [] ∧ Defd ρ a ∧ Defd ρ b ∧ (x.1 ≠ 0 ↔ Tru ρ a ∨ Tru ρ b) := by
  obtain ⟨hr, xa, xb, v, ha, hb, hv, rfl⟩ := sem_op2 rfl h
  simp only [opSem, Option.some.injEq] at hv
  subst hv
  refine ⟨hr, ⟨_, ha⟩, ⟨_, hb⟩, ?_⟩
  rw [tru_of ha, tru_of hb, b2i_ne]
  simp

theorem tru_land {ρ a b} (ha : Defd ρ a) (hb : Defd ρ b) :
    Defd ρ (.op .land [a, b]) ∧ (Tru ρ (.op .land [a, b]) ↔ Tru ρ a ∧ Tru ρ b) := by
  obtain ⟨xa, ha⟩ := ha
  obtain ⟨xb, hb⟩ := hb
  have h := sem_op2_mk (o := .land) ha hb rfl
  refine ⟨⟨_, h⟩, ?_⟩
  rw [tru_of h, tru_of ha, tru_of hb, b2i_ne]; simp

theorem tru_lor {ρ a b} (ha : Defd ρ a) (hb : Defd ρ b) :
    Defd ρ (.op .lor [a, b]) ∧ (Tru ρ (.op .lor [a, b]) ↔ Tru ρ a ∨ Tru ρ b) := by
  obtain ⟨xa, ha⟩ := ha
  obtain ⟨xb, hb⟩ := hb
  have h := sem_op2_mk (o := .lor) ha hb rfl
  refine ⟨⟨_, h⟩, ?_⟩
  rw [tru_of h, tru_of ha, tru_of hb, b2i_ne]; simp

theorem tru_ulnot {ρ a rest} (h : Defd ρ (.op .ulnot (a :: rest))) :
    rest = [] ∧ Defd ρ a ∧ (Tru ρ (.op .ulnot (a :: rest)) ↔ ¬ Tru ρ a) := by
  obtain ⟨x, h⟩ := h
  obtain ⟨hr, xa, v, ha, hv, rfl⟩ := sem_op1 rfl h
  simp only [opSem, Option.some.injEq] at hv
  subst hv
  refine ⟨hr, ⟨_, ha⟩, ?_⟩
  rw [tru_of h, tru_of ha, b2i_ne]; simp

theorem defd_ulnot {ρ a} (h : Defd ρ a) : Defd ρ (.op .ulnot [a]) := by
  obtain ⟨x, h⟩ := h
  exact ⟨_, sem_op1_mk (o := .ulnot) h rfl⟩

theorem tru_evi {ρ n w} : Defd ρ (.evi n w) ∧ (Tru ρ (.evi n w) ↔ n ≠ 0) := by
  have : sem ρ (.evi n w) = some (n, w.getD ρ.dw) := by simp [sem]
  exact ⟨⟨_, this⟩, by rw [tru_of this]⟩

/-! ### flattening preserves truth -/

theorem notOf_tru {ρ l nl} (h : notOf l = .ok nl) (hd : Defd ρ l) : Defd ρ nl ∧ (Tru ρ nl ↔ ¬ Tru ρ l) := by
  unfold notOf at h
  split at h
  · simp at h; subst h
    obtain ⟨_, h1, h2⟩ := tru_ulnot hd
    exact ⟨h1, by rw [h2]; simp⟩
  · simp at h
  · obtain ⟨rfl, _⟩ := DF.mkOp_ok h
    have := defd_ulnot hd
    exact ⟨this, (tru_ulnot this).2.2⟩

theorem dedupe_none {ρ : Env} {ret ls} (h : dedupe ret ls = .ok Option.none) (hd : ∀ n ∈ ls, Defd ρ n) :
    (∃ n, (n ∈ ret ∨ n ∈ ls) ∧ Tru ρ n) ∧ (∃ n, (n ∈ ret ∨ n ∈ ls) ∧ ¬ Tru ρ n) := by
  induction ls generalizing ret with
  | nil => simp [dedupe] at h
  | cons l ls ih =>
    simp only [dedupe, bind_ok] at h
    obtain ⟨nl, hnl, h⟩ := h
    obtain ⟨h1, h2⟩ := notOf_tru hnl (hd l (by simp))
    split at h
    · rename_i hm
      by_cases hl : Tru ρ l
      · exact ⟨⟨l, .inr (by simp), hl⟩, ⟨nl, .inl hm, fun h => h2.mp h hl⟩⟩
      · exact ⟨⟨nl, .inl hm, h2.mpr hl⟩, ⟨l, .inr (by simp), hl⟩⟩
    · have lift : ∀ {ret' : List DF}, (∀ n ∈ ret', n ∈ ret ∨ n ∈ l :: ls) →
          ((∃ n, (n ∈ ret' ∨ n ∈ ls) ∧ Tru ρ n) ∧ (∃ n, (n ∈ ret' ∨ n ∈ ls) ∧ ¬ Tru ρ n)) →
          (∃ n, (n ∈ ret ∨ n ∈ l :: ls) ∧ Tru ρ n) ∧ (∃ n, (n ∈ ret ∨ n ∈ l :: ls) ∧ ¬ Tru ρ n) := by
        rintro ret' hr ⟨⟨n, hn, ht⟩, ⟨m, hm, ht'⟩⟩
        refine ⟨⟨n, ?_, ht⟩, ⟨m, ?_, ht'⟩⟩
        · rcases hn with hn | hn
          · exact hr n hn
          · exact .inr (by simp [hn])
        · rcases hm with hn | hn
          · exact hr m hn
          · exact .inr (by simp [hn])
      split at h
      · exact lift (fun n hn => .inl hn) (ih h (fun n hn => hd n (by simp [hn])))
      · refine lift ?_ (ih h (fun n hn => hd n (by simp [hn])))
        intro n hn
        simp at hn
        rcases hn with hn | hn
        · exact .inl hn
        · exact .inr (by simp [hn])

theorem dedupe_some {ret ls rs} (h : dedupe ret ls = .ok (some rs)) : ∀ n, n ∈ rs ↔ n ∈ ret ∨ n ∈ ls := by
  induction ls generalizing ret with
  | nil => simp [dedupe] at h; subst h; simp
  | cons l ls ih =>
    simp only [dedupe, bind_ok] at h
    obtain ⟨nl, _, h⟩ := h
    split at h
    · simp at h
    · split at h
      · rename_i hl
        intro n
        rw [ih h n]
        simp only [List.mem_cons]
        constructor
        · tauto
        · rintro (h1 | rfl | h1)
          · exact .inl h1
          · exact .inl hl
          · exact .inr h1
      · intro n
        rw [ih h n]
        simp only [List.mem_cons, List.mem_append, List.not_mem_nil, or_false]
        tauto

/-- What is known of simplified condition trees: a logical and/or occurs only in a truth position, the
operand of `~` beside a bitwise or logical operator is one bit wide, and `!` in a numeric position has a 0/1
operand. -/
def OKT (ρ : Env) : Bool → DF → Prop
  | tm, .op .land ns => tm = true ∧ ∀ n ∈ ns, OKT ρ true n
  | tm, .op .lor ns => tm = true ∧ ∀ n ∈ ns, OKT ρ true n
  | _, .op .and ns => ∀ n ∈ ns, OKT ρ false n
  | _, .op .or ns => ∀ n ∈ ns, OKT ρ false n
  | tm, .op .ulnot ns => tm = false → ∀ n ∈ ns, ∀ x, sem ρ n = some x → x.1 = 0 ∨ x.1 = 1
  | _, .op .unot ns => ∀ n ∈ ns, n.rigid = true ∧ ∀ x, sem ρ n = some x → x.2 = 1 ∧ (x.1 = 0 ∨ x.1 = 1)
  | _, _ => True

theorem OKT.lift {ρ tm t} (h : OKT ρ tm t) : OKT ρ true t := by
  cases tm
  · cases t with
    | op o ns =>
      cases o <;> simp only [OKT] at h ⊢ <;> first | exact h | (exact absurd h.1 (by simp)) | simp
    | _ => simp [OKT]
  · exact h

theorem rebuild_land {ρ ns r} (h : rebuild .land ns = .ok r) (hne : ns ≠ []) (hd : ∀ n ∈ ns, Defd ρ n)
    (hok : ∀ n ∈ ns, OKT ρ true n) : Defd ρ r ∧ (Tru ρ r ↔ ∀ n ∈ ns, Tru ρ n) ∧ OKT ρ true r := by
  cases ns with
  | nil => exact absurd rfl hne
  | cons n ns =>
    simp only [rebuild] at h
    have key : ∀ (ns : List DF) (n r : DF), (∀ m ∈ ns, Defd ρ m ∧ OKT ρ true m) → Defd ρ n → OKT ρ true n →
        ns.foldlM (fun acc r => DF.mkOp .land [acc, r]) n = .ok r →
        Defd ρ r ∧ (Tru ρ r ↔ Tru ρ n ∧ ∀ m ∈ ns, Tru ρ m) ∧ OKT ρ true r := by
      intro ns
      induction ns with
      | nil => intro n r _ hn ho h; simp [pure, Except.pure] at h; subst h; exact ⟨hn, by simp, ho⟩
      | cons m ns ih =>
        intro n r hm hn ho h
        simp only [List.foldlM_cons, bind_ok] at h
        obtain ⟨a, ha, h⟩ := h
        obtain ⟨rfl, _⟩ := DF.mkOp_ok ha
        obtain ⟨d1, t1⟩ := tru_land hn (hm m (by simp)).1
        obtain ⟨d2, t2, o2⟩ := ih _ r (fun m' hm' => hm m' (by simp [hm'])) d1
          (by simp only [OKT]; exact ⟨trivial, by simp [ho, (hm m (by simp)).2]⟩) h
        refine ⟨d2, ?_, o2⟩
        rw [t2, t1]; simp [and_assoc]
    obtain ⟨h1, h2, h3⟩ := key ns n r (fun m hm => ⟨hd m (by simp [hm]), hok m (by simp [hm])⟩) (hd n (by simp))
      (hok n (by simp)) h
    exact ⟨h1, by rw [h2]; simp, h3⟩

theorem rebuild_lor {ρ ns r} (h : rebuild .lor ns = .ok r) (hne : ns ≠ []) (hd : ∀ n ∈ ns, Defd ρ n)
    (hok : ∀ n ∈ ns, OKT ρ true n) : Defd ρ r ∧ (Tru ρ r ↔ ∃ n ∈ ns, Tru ρ n) ∧ OKT ρ true r := by
  cases ns with
  | nil => exact absurd rfl hne
  | cons n ns =>
    simp only [rebuild] at h
    have key : ∀ (ns : List DF) (n r : DF), (∀ m ∈ ns, Defd ρ m ∧ OKT ρ true m) → Defd ρ n → OKT ρ true n →
        ns.foldlM (fun acc r => DF.mkOp .lor [acc, r]) n = .ok r →
        Defd ρ r ∧ (Tru ρ r ↔ Tru ρ n ∨ ∃ m ∈ ns, Tru ρ m) ∧ OKT ρ true r := by
      intro ns
      induction ns with
      | nil => intro n r _ hn ho h; simp [pure, Except.pure] at h; subst h; exact ⟨hn, by simp, ho⟩
      | cons m ns ih =>
        intro n r hm hn ho h
        simp only [List.foldlM_cons, bind_ok] at h
        obtain ⟨a, ha, h⟩ := h
        obtain ⟨rfl, _⟩ := DF.mkOp_ok ha
        obtain ⟨d1, t1⟩ := tru_lor hn (hm m (by simp)).1
        obtain ⟨d2, t2, o2⟩ := ih _ r (fun m' hm' => hm m' (by simp [hm'])) d1
          (by simp only [OKT]; exact ⟨trivial, by simp [ho, (hm m (by simp)).2]⟩) h
        refine ⟨d2, ?_, o2⟩
        rw [t2, t1]; simp [or_assoc]
    obtain ⟨h1, h2, h3⟩ := key ns n r (fun m hm => ⟨hd m (by simp [hm]), hok m (by simp [hm])⟩) (hd n (by simp))
      (hok n (by simp)) h
    exact ⟨h1, by rw [h2]; simp, h3⟩

theorem mergeLandAux_tru {ρ : Env} (t : DF) : ∀ {f}, mergeLandAux t = .ok f → Defd ρ t → OKT ρ true t →
    f.list ≠ [] ∧ (∀ n ∈ f.list, Defd ρ n ∧ OKT ρ true n) ∧ (Tru ρ t ↔ ∀ n ∈ f.list, Tru ρ n) := by
  induction t using DF.ind with
  | op o ns ih =>
    intro f h hd hok
    unfold mergeLandAux at h
    split at h
    · rename_i a b r heq
      simp only [DF.op.injEq] at heq
      obtain ⟨rfl, rfl⟩ := heq
      simp only [bind_ok] at h
      obtain ⟨l, hl, r', hr, d, hdd, h⟩ := h
      obtain ⟨x, hx⟩ := hd
      obtain ⟨rfl, da, db, hxt⟩ := sem_land hx
      rw [tru_of hx, hxt]
      simp only [OKT] at hok
      obtain ⟨n1, e1, t1⟩ := ih a (by simp) hl da (hok.2 a (by simp))
      obtain ⟨n2, e2, t2⟩ := ih b (by simp) hr db (hok.2 b (by simp))
      have hdall : ∀ n ∈ l.list ++ r'.list, Defd ρ n ∧ OKT ρ true n := by
        intro n hn; rcases List.mem_append.mp hn with h | h
        · exact e1 n h
        · exact e2 n h
      have htall : (Tru ρ a ∧ Tru ρ b) ↔ ∀ n ∈ l.list ++ r'.list, Tru ρ n := by
        rw [t1, t2]; simp only [List.mem_append]
        constructor
        · rintro ⟨h1, h2⟩ n (h | h)
          · exact h1 n h
          · exact h2 n h
        · intro h; exact ⟨fun n hn => h n (.inl hn), fun n hn => h n (.inr hn)⟩
      split at h
      · simp at h; subst h
        obtain ⟨_, m, hm, hmt⟩ := dedupe_none (ρ := ρ) hdd (fun n hn => (hdall n hn).1)
        refine ⟨by simp [Flat.list], by simp [Flat.list, tru_evi, OKT], ?_⟩
        rw [htall]
        refine iff_of_false (fun hh => hmt (hh m (by simpa using hm))) (fun hh => ?_)
        have := hh (.evi 0 (some 1)) (by simp [Flat.list])
        rw [tru_evi.2] at this; exact this rfl
      · rename_i ds
        simp only [bind_ok, ok_inj] at h
        obtain ⟨s, hs, rfl⟩ := h
        have hp := sortByCode_perm hs
        have hmem : ∀ n, n ∈ s ↔ n ∈ l.list ++ r'.list := by
          intro n
          rw [hp.mem_iff, dedupe_some hdd]; simp
        refine ⟨?_, ?_, ?_⟩
        · intro hs0
          simp only [Flat.list] at hs0
          obtain ⟨m, hm⟩ := List.exists_mem_of_ne_nil _ n1
          have := (hmem m).mpr (List.mem_append_left _ hm)
          rw [hs0] at this; simp at this
        · intro n hn; exact hdall n ((hmem n).mp hn)
        · rw [htall]
          simp only [Flat.list]
          constructor
          · intro h n hn; exact h n ((hmem n).mp hn)
          · intro h n hn; exact h n ((hmem n).mpr hn)
    · simp at h
    · simp at h; subst h; exact ⟨by simp [Flat.list], by simpa [Flat.list] using ⟨hd, hok⟩, by simp [Flat.list]⟩
  | _ =>
    intro f h hd hok
    simp [mergeLandAux] at h; subst h
    exact ⟨by simp [Flat.list], by simpa [Flat.list] using ⟨hd, hok⟩, by simp [Flat.list]⟩

theorem mergeLand_tru {ρ : Env} {t r} (h : mergeLand t = .ok r) (hd : Defd ρ t) (hok : OKT ρ true t) :
    Defd ρ r ∧ (Tru ρ r ↔ Tru ρ t) ∧ OKT ρ true r := by
  unfold mergeLand at h
  simp only [bind_ok] at h
  obtain ⟨f, hf, h⟩ := h
  obtain ⟨h1, h2, h3⟩ := mergeLandAux_tru t hf hd hok
  cases f with
  | node m =>
    simp at h; subst h
    simp only [Flat.list, List.mem_singleton, forall_eq] at h2 h3
    exact ⟨h2.1, h3.symm, h2.2⟩
  | tup ns =>
    simp only [Flat.list] at h1 h2 h3
    obtain ⟨a, b, c⟩ := rebuild_land h h1 (fun n hn => (h2 n hn).1) (fun n hn => (h2 n hn).2)
    exact ⟨a, by rw [b, h3], c⟩

theorem mergeLorAux_tru {ρ : Env} (t : DF) : ∀ {f}, mergeLorAux t = .ok f → Defd ρ t → OKT ρ true t →
    f.list ≠ [] ∧ (∀ n ∈ f.list, Defd ρ n ∧ OKT ρ true n) ∧ (Tru ρ t ↔ ∃ n ∈ f.list, Tru ρ n) := by
  induction t using DF.ind with
  | op o ns ih =>
    intro f h hd hok
    unfold mergeLorAux at h
    split at h
    · rename_i ms heq
      simp only [DF.op.injEq] at heq
      obtain ⟨rfl, rfl⟩ := heq
      simp only [bind_ok, ok_inj] at h
      obtain ⟨m, hm, rfl⟩ := h
      obtain ⟨a, b, c⟩ := mergeLand_tru hm hd hok
      exact ⟨by simp [Flat.list], by simpa [Flat.list] using ⟨a, c⟩, by simpa [Flat.list] using b.symm⟩
    · rename_i a b r heq
      simp only [DF.op.injEq] at heq
      obtain ⟨rfl, rfl⟩ := heq
      simp only [bind_ok] at h
      obtain ⟨l, hl, r', hr, d, hdd, h⟩ := h
      obtain ⟨x, hx⟩ := hd
      obtain ⟨rfl, da, db, hxt⟩ := sem_lor hx
      rw [tru_of hx, hxt]
      simp only [OKT] at hok
      obtain ⟨n1, e1, t1⟩ := ih a (by simp) hl da (hok.2 a (by simp))
      obtain ⟨n2, e2, t2⟩ := ih b (by simp) hr db (hok.2 b (by simp))
      have hdall : ∀ n ∈ l.list ++ r'.list, Defd ρ n ∧ OKT ρ true n := by
        intro n hn; rcases List.mem_append.mp hn with h | h
        · exact e1 n h
        · exact e2 n h
      have htall : (Tru ρ a ∨ Tru ρ b) ↔ ∃ n ∈ l.list ++ r'.list, Tru ρ n := by
        rw [t1, t2]; simp only [List.mem_append]
        constructor
        · rintro (⟨n, h1, h2⟩ | ⟨n, h1, h2⟩)
          · exact ⟨n, .inl h1, h2⟩
          · exact ⟨n, .inr h1, h2⟩
        · rintro ⟨n, h1 | h1, h2⟩
          · exact .inl ⟨n, h1, h2⟩
          · exact .inr ⟨n, h1, h2⟩
      split at h
      · simp at h; subst h
        obtain ⟨⟨m, hm, hmt⟩, _⟩ := dedupe_none (ρ := ρ) hdd (fun n hn => (hdall n hn).1)
        refine ⟨by simp [Flat.list], by simp [Flat.list, tru_evi, OKT], ?_⟩
        rw [htall]
        refine iff_of_true ⟨m, by simpa using hm, hmt⟩ ⟨.evi 1 (some 1), by simp [Flat.list], ?_⟩
        rw [tru_evi.2]; simp
      · rename_i ds
        simp only [bind_ok, ok_inj] at h
        obtain ⟨s, hs, rfl⟩ := h
        have hp := sortByCode_perm hs
        have hmem : ∀ n, n ∈ s ↔ n ∈ l.list ++ r'.list := by
          intro n
          rw [hp.mem_iff, dedupe_some hdd]; simp
        refine ⟨?_, ?_, ?_⟩
        · intro hs0
          simp only [Flat.list] at hs0
          obtain ⟨m, hm⟩ := List.exists_mem_of_ne_nil _ n1
          have := (hmem m).mpr (List.mem_append_left _ hm)
          rw [hs0] at this; simp at this
        · intro n hn; exact hdall n ((hmem n).mp hn)
        · rw [htall]
          simp only [Flat.list]
          constructor
          · rintro ⟨n, hn, h⟩; exact ⟨n, (hmem n).mpr hn, h⟩
          · rintro ⟨n, hn, h⟩; exact ⟨n, (hmem n).mp hn, h⟩
    · simp at h
    · simp at h; subst h; exact ⟨by simp [Flat.list], by simpa [Flat.list] using ⟨hd, hok⟩, by simp [Flat.list]⟩
  | _ =>
    intro f h hd hok
    simp [mergeLorAux] at h; subst h
    exact ⟨by simp [Flat.list], by simpa [Flat.list] using ⟨hd, hok⟩, by simp [Flat.list]⟩

/-- Flattening a condition preserves its truth. -/
theorem mergeLandLor_tru {ρ : Env} {t r} (h : mergeLandLor t = .ok r) (hd : Defd ρ t) (hok : OKT ρ true t) :
    Defd ρ r ∧ (Tru ρ r ↔ Tru ρ t) ∧ OKT ρ true r := by
  unfold mergeLandLor at h
  simp only [bind_ok] at h
  obtain ⟨f, hf, h⟩ := h
  obtain ⟨h1, h2, h3⟩ := mergeLorAux_tru t hf hd hok
  cases f with
  | node m =>
    simp at h; subst h
    simp only [Flat.list, List.mem_singleton, forall_eq, exists_eq_left] at h2 h3
    exact ⟨h2.1, h3.symm, h2.2⟩
  | tup ns =>
    simp only [Flat.list] at h1 h2 h3
    obtain ⟨a, b, c⟩ := rebuild_lor h h1 (fun n hn => (h2 n hn).1) (fun n hn => (h2 n hn).2)
    exact ⟨a, by rw [b, h3], c⟩

end Pyv
