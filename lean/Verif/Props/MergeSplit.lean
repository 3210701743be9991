import Verif.Merge
import Verif.Util
import Verif.Sem
import Verif.Props.ReorderProps
import Verif.Props.FsmBuild
import Verif.Props.MergeSources
/-
  C30, C31: splitting assignments at bit positions.
-/
namespace Pyv

/-- The assignment's target range is bits `m` down to `l` (of the whole signal, or of a constant array element). -/
def Bind.Range (b : Bind) (m l : Int) : Prop :=
  (∃ w x y, b.msb = .ev (.int m) w x y) ∧ (∃ w x y, b.lsb = .ev (.int l) w x y) ∧
  (b.ptr = .none ∨ ∃ v w x y, b.ptr = .ev v w x y)

/-- The listed assignments tile bits `l` to `m`, from the least significant piece to the most significant one. -/
def Tiles (m : Int) : Int → List Bind → Prop
  | _, [] => False
  | l, [b] => b.Range m l ∧ l ≤ m
  | l, b :: bs => ∃ k, l ≤ k ∧ k < m ∧ b.Range k l ∧ Tiles m (k + 1) bs

/-- Constant folding leaves constants (and absent nodes) alone. -/
def ConstStable (S : MergeEnv) : Prop := S.optc .none = .ok .none ∧ ∀ v w x y, S.optc (.ev v w x y) = .ok (.ev v w x y)

theorem constStable_real (ctx : OptCtx) (k level : Nat) (b rb : Dict ScopeChain (List Bind)) :
    ConstStable (mergeEnvOf ctx (k + 1) level b rb) := ⟨rfl, fun _ _ _ _ => rfl⟩

theorem Bind.Range.inj {b : Bind} {m l m' l' : Int} (h : b.Range m l) (h' : b.Range m' l') : m = m' ∧ l = l' := by
  obtain ⟨⟨_, _, _, e1⟩, ⟨_, _, _, e2⟩, _⟩ := h
  obtain ⟨⟨_, _, _, e1'⟩, ⟨_, _, _, e2'⟩, _⟩ := h'
  rw [e1] at e1'; rw [e2] at e2'
  simp at e1' e2'
  exact ⟨e1'.1, e2'.1⟩

/-- The two pieces of a split assignment. -/
def leftPiece (b : Bind) (t : DF) (m p : Int) : Bind := { b with tree := t, msb := .evi m (some 32), lsb := .evi p (some 32) }
def rightPiece (b : Bind) (t : DF) (p l : Int) : Bind := { b with tree := t, msb := .evi (p - 1) (some 32), lsb := .evi l (some 32) }

theorem splitBind_outside {S : MergeEnv} (hS : ConstStable S) {b : Bind} {m l : Int} (hb : b.Range m l) {p : Int}
    (hp : ¬ (l < p ∧ p ≤ m)) : S.splitBind b p = .ok (b, none) := by
  obtain ⟨⟨w1, x1, y1, e1⟩, ⟨w2, x2, y2, e2⟩, e3⟩ := hb
  have hptr : S.optc b.ptr = .ok b.ptr := by
    rcases e3 with e | ⟨_, _, _, _, e⟩ <;> rw [e]
    · exact hS.1
    · exact hS.2 ..
  simp only [MergeEnv.splitBind, e1, e2, hS.2, hptr, ok_bind, MergeEnv.rangeA, MergeEnv.rangeB, reduceCtorEq, and_false,
    or_self, if_false, DF.intAttr, DF.valueAttr, PyVal.toInt]
  by_cases h1 : p > l
  · rw [if_pos h1, if_neg (fun h => hp ⟨h1, h⟩)]
  · rw [if_neg h1]

theorem splitBind_inside {S : MergeEnv} (hS : ConstStable S) {b : Bind} {m l : Int} (hb : b.Range m l) {p : Int}
    (h1 : l < p) (h2 : p ≤ m) {res : Bind × Option Bind} (h : S.splitBind b p = .ok res) :
    ∃ r0 r l0 l', S.reo (.psel b.tree (.evi (p - l - 1) (some 32)) (.evi 0 (some 32))) = .ok r0 ∧ S.opt r0 = .ok r ∧
      S.reo (.psel b.tree (.evi m (some 32)) (.evi p (some 32))) = .ok l0 ∧ S.opt l0 = .ok l' ∧
      res = (leftPiece b l' m p, some (rightPiece b r p l)) := by
  obtain ⟨⟨w1, x1, y1, e1⟩, ⟨w2, x2, y2, e2⟩, e3⟩ := hb
  have hptr : S.optc b.ptr = .ok b.ptr := by
    rcases e3 with e | ⟨_, _, _, _, e⟩ <;> rw [e]
    · exact hS.1
    · exact hS.2 ..
  simp only [MergeEnv.splitBind, e1, e2, hS.2, hptr, ok_bind, MergeEnv.rangeA, MergeEnv.rangeB, reduceCtorEq, and_false,
    or_self, if_false, DF.intAttr, DF.valueAttr, PyVal.toInt] at h
  rw [if_pos (show p > l from h1), if_pos h2] at h
  simp only [bind_ok, ok_inj] at h
  obtain ⟨r0, hr0, l0, hl0, r, hr, l', hl', rfl⟩ := h
  have e : m - (m - p + 1) + 1 = p := by omega
  rw [e] at hl0
  exact ⟨r0, r, l0, l', hr0, hr, hl0, hl', rfl⟩

theorem range_left {b : Bind} {m l : Int} (hb : b.Range m l) (t : DF) (p : Int) : (leftPiece b t m p).Range m p :=
  ⟨⟨_, _, _, rfl⟩, ⟨_, _, _, rfl⟩, hb.2.2⟩
theorem range_right {b : Bind} {m l : Int} (hb : b.Range m l) (t : DF) (p : Int) : (rightPiece b t p l).Range (p - 1) l :=
  ⟨⟨_, _, _, rfl⟩, ⟨_, _, _, rfl⟩, hb.2.2⟩

/-! ### C30 -/

/-- **C30** (ranges) Splitting an assignment of bits `m` to `l` at ascending positions gives pieces of the same signal
that tile these bits; every position inside the range starts a piece and every piece starts at the lower end of the range
or at a position. -/
theorem C30_pieces_tile (S : MergeEnv) (hS : ConstStable S) (ps : List Int) (hps : ps.Pairwise (· ≤ ·)) (b : Bind) (m l : Int)
    (hb : b.Range m l) (hle : l ≤ m) (bs : List Bind) (h : S.splitBindPositions b ps = .ok bs) :
    Tiles m l bs ∧ (∀ p ∈ ps, l < p → p ≤ m → ∃ x ∈ bs, ∃ k, x.Range k p) ∧
    (∀ x ∈ bs, ∀ k j, x.Range k j → j = l ∨ j ∈ ps) ∧ (∀ x ∈ bs, x.dest = b.dest ∧ x.ptr = b.ptr) := by
  induction ps generalizing b l bs with
  | nil =>
    simp only [MergeEnv.splitBindPositions, ok_inj] at h
    subst h
    refine ⟨⟨hb, hle⟩, by simp, ?_, by simp⟩
    intro x hx k j hr
    simp at hx; subst hx
    exact .inl (hr.inj hb).2
  | cons p ps ih =>
    rw [List.pairwise_cons] at hps
    simp only [MergeEnv.splitBindPositions, bind_ok] at h
    obtain ⟨⟨left, right⟩, h1, h⟩ := h
    simp only [bind_ok, ok_inj] at h
    obtain ⟨rest, h2, rfl⟩ := h
    by_cases hp : l < p ∧ p ≤ m
    · obtain ⟨r0, r, l0, l', _, _, _, _, e⟩ := splitBind_inside hS hb hp.1 hp.2 h1
      simp only [Prod.mk.injEq] at e
      obtain ⟨rfl, rfl⟩ := e
      obtain ⟨i1, i2, i3, i4⟩ := ih hps.2 _ p (range_left hb l' p) hp.2 rest h2
      refine ⟨?_, ?_, ?_, ?_⟩
      · cases rest with
        | nil => exact absurd i1 (by simp [Tiles])
        | cons c cs =>
          refine ⟨p - 1, by omega, by omega, range_right hb r p, ?_⟩
          have e : p - 1 + 1 = p := by omega
          rw [e]; exact i1
      · intro q hq hl hm
        rcases List.mem_cons.mp hq with rfl | hq
        · cases rest with
          | nil => exact absurd i1 (by simp [Tiles])
          | cons c cs =>
            cases cs with
            | nil => exact ⟨c, by simp, m, i1.1⟩
            | cons d ds =>
              obtain ⟨k, _, _, hr, _⟩ := i1
              exact ⟨c, by simp, k, hr⟩
        · have := hps.1 q hq
          by_cases e : p = q
          · subst e
            cases rest with
            | nil => exact absurd i1 (by simp [Tiles])
            | cons c cs =>
              cases cs with
              | nil => exact ⟨c, by simp, m, i1.1⟩
              | cons d ds =>
                obtain ⟨k, _, _, hr, _⟩ := i1
                exact ⟨c, by simp, k, hr⟩
          · obtain ⟨x, hx, k, hr⟩ := i2 q hq (by omega) hm
            exact ⟨x, by simp [hx], k, hr⟩
      · intro x hx k j hr
        rcases List.mem_append.mp hx with hx | hx
        · simp at hx; subst hx
          exact .inl (hr.inj (range_right hb r p)).2
        · rcases i3 x hx k j hr with rfl | h
          · exact .inr (by simp)
          · exact .inr (by simp [h])
      · intro x hx
        rcases List.mem_append.mp hx with hx | hx
        · simp at hx; subst hx; exact ⟨rfl, rfl⟩
        · exact i4 x hx
    · rw [splitBind_outside hS hb hp, ok_inj] at h1
      simp only [Prod.mk.injEq] at h1
      obtain ⟨rfl, rfl⟩ := h1
      obtain ⟨i1, i2, i3, i4⟩ := ih hps.2 _ l hb hle rest h2
      refine ⟨i1, ?_, ?_, i4⟩
      · intro q hq hl hm
        rcases List.mem_cons.mp hq with rfl | hq
        · exact absurd ⟨hl, hm⟩ hp
        · exact i2 q hq hl hm
      · intro x hx k j hr
        rcases i3 x hx k j hr with h | h
        · exact .inl h
        · exact .inr (by simp [h])

/-- **C30** Splitting returns, when reordering and simplifying bit selections of the trees at hand does. -/
theorem C30_split_total (S : MergeEnv) (hS : ConstStable S) (P : DF → Prop)
    (hP : ∀ t m l, P t → ∃ r r', S.reo (.psel t (.evi m (some 32)) (.evi l (some 32))) = .ok r ∧ S.opt r = .ok r' ∧ P r')
    (ps : List Int) (b : Bind) (m l : Int) (hb : b.Range m l) (ht : P b.tree) : ∃ bs, S.splitBindPositions b ps = .ok bs := by
  induction ps generalizing b l with
  | nil => exact ⟨_, rfl⟩
  | cons p ps ih =>
    by_cases hp : l < p ∧ p ≤ m
    · obtain ⟨r, r', e1, e2, _⟩ := hP b.tree (p - l - 1) 0 ht
      obtain ⟨q, q', e3, e4, hq⟩ := hP b.tree m p ht
      have : S.splitBind b p = .ok (leftPiece b q' m p, some (rightPiece b r' p l)) := by
        have hb' := hb
        obtain ⟨⟨w1, x1, y1, k1⟩, ⟨w2, x2, y2, k2⟩, k3⟩ := hb'
        have hptr : S.optc b.ptr = .ok b.ptr := by
          rcases k3 with e | ⟨_, _, _, _, e⟩ <;> rw [e]
          · exact hS.1
          · exact hS.2 ..
        have e : m - (m - p + 1) + 1 = p := by omega
        simp only [MergeEnv.splitBind, k1, k2, hS.2, hptr, ok_bind, MergeEnv.rangeA, MergeEnv.rangeB, reduceCtorEq,
          and_false, or_self, if_false, DF.intAttr, DF.valueAttr, PyVal.toInt]
        rw [if_pos (show p > l from hp.1), if_pos hp.2]
        simp only [e1, ok_bind, e, e3, e2, e4]
        rfl
      obtain ⟨rest, hrest⟩ := ih (leftPiece b q' m p) p (range_left hb q' p) hq
      exact ⟨[rightPiece b r' p l] ++ rest, by simp only [MergeEnv.splitBindPositions, this, ok_bind, hrest]; rfl⟩
    · obtain ⟨rest, hrest⟩ := ih b l hb ht
      exact ⟨rest, by simp only [MergeEnv.splitBindPositions, splitBind_outside hS hb hp, ok_bind, hrest]; rfl⟩

/-- `f` keeps the value of `t`. -/
def KeepsVal (f : DF → Py DF) (ρ : Env) (t : DF) : Prop := ∀ r x, f t = .ok r → sem ρ t = some x → sem ρ r = some x

theorem keepsVal_reorder (ρ : Env) (ha : ArraysOK ρ) (k : Nat) (t : DF) : KeepsVal (reorder k) ρ t :=
  fun r x h hs => C14_reorder_value ρ ha k t r h x hs

/-- The piece assigning bits `m` to `l` of an assignment whose own range starts at `base` holds the bits `m - base` to
`l - base` of the assigned value `v`. -/
def PieceOK (ρ : Env) (v : Int) (base : Int) (x : Bind) : Prop :=
  ∀ m l, x.Range m l → sem ρ x.tree = pselVal v (m - base) (l - base)

theorem part_sem {S : MergeEnv} {ρ : Env} (hreo : ∀ t, KeepsVal S.reo ρ t)
    {t r0 r : DF} (hopt : KeepsVal S.opt ρ r0) {m l : Int} (h0 : S.reo (.psel t (.evi m (some 32)) (.evi l (some 32))) = .ok r0) (h1 : S.opt r0 = .ok r)
    {v : Int × Int} (hv : sem ρ t = some v) (hl : 0 ≤ l) (hm : l ≤ m) : sem ρ r = pselVal v.1 m l := by
  have : sem ρ (.psel t (.evi m (some 32)) (.evi l (some 32))) = pselVal v.1 m l := by
    simp [sem, hv, DF.evi]
  cases hx : pselVal v.1 m l with
  | none => simp [pselVal] at hx; omega
  | some x => rw [hx] at this; exact hopt _ _ h1 (hreo _ _ _ h0 this)

/-- **C30** (contents) Of one split, the lower piece always holds its bits of the assigned value. -/
theorem C30_lower_piece (S : MergeEnv) (hS : ConstStable S) (ρ : Env) (hreo : ∀ t, KeepsVal S.reo ρ t)
    (b : Bind) (m l p : Int)
    (hr : ∀ r0, S.reo (.psel b.tree (.evi (p - l - 1) (some 32)) (.evi 0 (some 32))) = .ok r0 → KeepsVal S.opt ρ r0)
    (hb : b.Range m l) (v w : Int) (hv : sem ρ b.tree = some (v, w))
    (left right : Bind) (h : S.splitBind b p = .ok (left, some right)) : PieceOK ρ v l right := by
  by_cases hp : l < p ∧ p ≤ m
  · obtain ⟨r0, r, l0, l', h1, h2, _, _, e⟩ := splitBind_inside hS hb hp.1 hp.2 h
    simp only [Prod.mk.injEq, Option.some.injEq] at e
    obtain ⟨_, rfl⟩ := e
    intro m' l' hr'
    obtain ⟨rfl, rfl⟩ := hr'.inj (range_right hb r p)
    have e1 : p - 1 - l' = p - l' - 1 := by omega
    have e2 : l' - l' = 0 := by omega
    rw [e1, e2]
    exact part_sem hreo (hr _ h1) h1 h2 hv (by omega) (by omega)
  · rw [splitBind_outside hS hb hp] at h; simp at h

/-- **C30** (contents, partial) When the assignment's range starts at bit 0 and at most one position lies inside it, all
pieces hold their bits of the assigned value.  Not so for other ranges or several positions: `C30_offset_false`,
`C30_two_positions_false`. -/
theorem C30_pieces_content_partial (S : MergeEnv) (hS : ConstStable S) (ρ : Env) (hreo : ∀ t, KeepsVal S.reo ρ t)
    (b : Bind) (m p : Int)
    (hr : ∀ r0, S.reo (.psel b.tree (.evi (p - 0 - 1) (some 32)) (.evi 0 (some 32))) = .ok r0 → KeepsVal S.opt ρ r0)
    (hl : ∀ r0, S.reo (.psel b.tree (.evi m (some 32)) (.evi p (some 32))) = .ok r0 → KeepsVal S.opt ρ r0)
    (hb : b.Range m 0) (hp0 : 0 < p) (hpm : p ≤ m)
    (qs ps : List Int) (hqs : ∀ q ∈ qs, ¬ (0 < q ∧ q ≤ m)) (hps : ∀ q ∈ ps, ¬ (p < q ∧ q ≤ m)) (v w : Int)
    (hv : sem ρ b.tree = some (v, w)) (bs : List Bind)
    (h : S.splitBindPositions b (qs ++ p :: ps) = .ok bs) : ∀ x ∈ bs, PieceOK ρ v 0 x := by
  have skip : ∀ (qs rest : List Int) (b : Bind) (m l : Int), b.Range m l → (∀ q ∈ qs, ¬ (l < q ∧ q ≤ m)) →
      S.splitBindPositions b (qs ++ rest) = S.splitBindPositions b rest := by
    intro qs rest b m l hb hq
    induction qs with
    | nil => rfl
    | cons q qs ih =>
      rw [List.cons_append, MergeEnv.splitBindPositions, splitBind_outside hS hb (hq q (by simp)), ok_bind]
      simp only [ih (fun q h => hq q (by simp [h]))]
      cases S.splitBindPositions b rest <;> rfl
  rw [skip qs _ b m 0 hb hqs, MergeEnv.splitBindPositions] at h
  simp only [bind_ok] at h
  obtain ⟨⟨left, right⟩, h1, h⟩ := h
  simp only [bind_ok, ok_inj] at h
  obtain ⟨rest, h2, rfl⟩ := h
  obtain ⟨r0, r, l0, l', k1, k2, k3, k4, e⟩ := splitBind_inside hS hb hp0 hpm h1
  simp only [Prod.mk.injEq] at e
  obtain ⟨rfl, rfl⟩ := e
  have := skip ps [] _ m p (range_left hb l' p) hps
  rw [List.append_nil] at this
  rw [this] at h2
  simp only [MergeEnv.splitBindPositions, ok_inj] at h2
  subst h2
  intro x hx
  simp only [Option.toList, List.cons_append, List.nil_append, List.mem_cons, List.not_mem_nil, or_false] at hx
  rcases hx with rfl | rfl
  · exact C30_lower_piece S hS ρ hreo b m 0 p hr hb v w hv _ _ h1
  · intro m' l'' hr'
    obtain ⟨rfl, rfl⟩ := hr'.inj (range_left hb l' p)
    have e1 : m' - 0 = m' := by omega
    have e2 : l'' - 0 = l'' := by omega
    rw [e1, e2]
    exact part_sem hreo (hl _ k3) k3 k4 hv (by omega) (by omega)

/-- The environment used in the examples: two optimization rounds, the modelled folding and reordering. -/
def c30S : MergeEnv := mergeEnvOf ⟨[(c23s, ⟨c23s, [.wire], .intc ['7'], .intc ['0'], none⟩)], [], 32, fun _ => none⟩ 5 2 [] []
/-- `d[m:l] = s`. -/
def c30b (m l : Int) : Bind := ⟨.term c23s, c23d, .evi m (some 32), .evi l (some 32), .none, [], none⟩
/-- `s` holds `v`, eight bits wide. -/
def c30env (v : Int) : Env := ⟨fun n => if n = c23s then some (v, 8) else none, fun _ => none, 32⟩

/-- Non-vacuity: `d[7:0] = s` split at 4. -/
example : (c30b 7 0).Range 7 0 ∧ ConstStable c30S := ⟨⟨⟨_, _, _, rfl⟩, ⟨_, _, _, rfl⟩, .inl rfl⟩, constStable_real _ 4 _ _ _⟩
example : ∃ x y, c30S.splitBindPositions (c30b 7 0) [0, 4, 8] = .ok [x, y] ∧ x.Range 3 0 ∧ y.Range 7 4 := by
  refine ⟨rightPiece (c30b 7 0) (.psel (.term c23s) (.evi 3 (some 32)) (.evi 0 (some 32))) 4 0,
    leftPiece (c30b 7 0) (.psel (.term c23s) (.evi 7 (some 32)) (.evi 4 (some 32))) 7 4, by decide +kernel, ?_, ?_⟩
  · exact ⟨⟨_, _, _, rfl⟩, ⟨_, _, _, rfl⟩, .inl rfl⟩
  · exact ⟨⟨_, _, _, rfl⟩, ⟨_, _, _, rfl⟩, .inl rfl⟩

example (v : Int) : (∀ t, KeepsVal c30S.reo (c30env v) t) ∧
    (∀ r0, c30S.reo (.psel (c30b 7 0).tree (.evi (4 - 0 - 1) (some 32)) (.evi 0 (some 32))) = .ok r0 → KeepsVal c30S.opt (c30env v) r0) ∧
    (∀ r0, c30S.reo (.psel (c30b 7 0).tree (.evi 7 (some 32)) (.evi 4 (some 32))) = .ok r0 → KeepsVal c30S.opt (c30env v) r0) := by
  have key : ∀ m l : Int, c30S.reo (.psel (c30b 7 0).tree (.evi m (some 32)) (.evi l (some 32))) =
      .ok (.psel (c30b 7 0).tree (.evi m (some 32)) (.evi l (some 32))) := fun _ _ => rfl
  refine ⟨fun t => keepsVal_reorder _ (by intro n f h; simp [c30env] at h) 5 t, ?_, ?_⟩
  · intro r0 h r x h1 h2
    rw [key, ok_inj] at h; subst h
    have : c30S.opt (.psel (c30b 7 0).tree (.evi (4 - 0 - 1) (some 32)) (.evi 0 (some 32))) =
      .ok (.psel (c30b 7 0).tree (.evi 3 (some 32)) (.evi 0 (some 32))) := by decide +kernel
    rw [this, ok_inj] at h1; subst h1; exact h2
  · intro r0 h r x h1 h2
    rw [key, ok_inj] at h; subst h
    have : c30S.opt (.psel (c30b 7 0).tree (.evi 7 (some 32)) (.evi 4 (some 32))) =
      .ok (.psel (c30b 7 0).tree (.evi 7 (some 32)) (.evi 4 (some 32))) := by decide +kernel
    rw [this, ok_inj] at h1; subst h1; exact h2

/-- **C30** is false of the code for a range not starting at 0: `d[7:4] = s` split at 6 assigns `s[7:6]` (and not `s[3:2]`)
to `d[7:6]`. -/
theorem C30_offset_false : ∃ x y, c30S.splitBindPositions (c30b 7 4) [6] = .ok [x, y] ∧ y.Range 7 6 ∧
    sem (c30env 12) (.term c23s) = some (12, 8) ∧ ¬ PieceOK (c30env 12) 12 4 y := by
  refine ⟨rightPiece (c30b 7 4) (.psel (.term c23s) (.evi 1 (some 32)) (.evi 0 (some 32))) 6 4,
    leftPiece (c30b 7 4) (.psel (.term c23s) (.evi 7 (some 32)) (.evi 6 (some 32))) 7 6, by decide +kernel,
    ⟨⟨_, _, _, rfl⟩, ⟨_, _, _, rfl⟩, .inl rfl⟩, by simp [sem, c30env], ?_⟩
  intro h
  have := h 7 6 ⟨⟨_, _, _, rfl⟩, ⟨_, _, _, rfl⟩, .inl rfl⟩
  revert this
  decide

/-- **C30** is false of the code for two positions: `d[7:0] = s` split at 2 and 4 assigns `s[7:2][7:4]` to `d[7:4]`. -/
theorem C30_two_positions_false : ∃ x y z, c30S.splitBindPositions (c30b 7 0) [2, 4] = .ok [x, y, z] ∧ z.Range 7 4 ∧
    ¬ PieceOK (c30env 255) 255 0 z := by
  refine ⟨rightPiece (c30b 7 0) (.psel (.term c23s) (.evi 1 (some 32)) (.evi 0 (some 32))) 2 0,
    rightPiece (c30b 7 0) (.psel (.psel (.term c23s) (.evi 7 (some 32)) (.evi 2 (some 32))) (.evi 1 (some 32)) (.evi 0 (some 32))) 4 2,
    leftPiece (c30b 7 0) (.psel (.psel (.term c23s) (.evi 7 (some 32)) (.evi 2 (some 32))) (.evi 7 (some 32)) (.evi 4 (some 32))) 7 4,
    by decide +kernel, ⟨⟨_, _, _, rfl⟩, ⟨_, _, _, rfl⟩, .inl rfl⟩, ?_⟩
  intro h
  have := h 7 4 ⟨⟨_, _, _, rfl⟩, ⟨_, _, _, rfl⟩, .inl rfl⟩
  revert this
  decide

end Pyv
