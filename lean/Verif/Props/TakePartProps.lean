import Verif.Props.ConcatProps
/-
  C11: simplifying a part select of a concatenation (optimizer.py:442-512 takePoint, takePart).
-/
namespace Pyv

/-- The node is already folded: folding it again changes nothing. -/
def Folded (ctx : OptCtx) (n : DF) : Prop := ∀ k n', ctx.optConst k n = .ok n' → n' = n

/-- The operand has at least one bit, and the width the optimizer computes for it is its number of bits. -/
def WidthOK (ctx : OptCtx) (k : Nat) (ρ : Env) (n : DF) : Prop :=
  ∀ w b, ctx.getWidth k n = .ok w → bits ρ n = some b → w = b.length ∧ b ≠ []

/-- `p` is the position of a boundary between operands whose widths are `ls`, least significant first. -/
def Boundary (ls : List Nat) (p : Int) : Prop := ∃ j, p = (ls.take j).sum

/-- The cuts `[M:L]` that takePart handles, for operands of widths `ls` (least significant first): the cut is
above the vector, starts at bit 0, is aligned with operand boundaries on both sides (or exceeds the vector), or
starts in the least significant operand and ends in it or above the vector. -/
def GoodCut (ls : List Nat) (M L : Int) : Prop :=
  L ≥ ls.sum ∨ L = 0 ∨ (Boundary ls L ∧ (Boundary ls (M + 1) ∨ M ≥ ls.sum)) ∨
    (L < (ls.headD 0 : Nat) ∧ (M < (ls.headD 0 : Nat) ∨ M ≥ ls.sum))

/-! ### bits of lists -/

theorem bitsL_rev {ρ ns b} : bitsL ρ ns = some b ↔
    ∃ bl, List.Forall₂ (fun n x => bits ρ n = some x) ns.reverse bl ∧ b = bl.flatten := by
  induction ns generalizing b with
  | nil =>
    simp only [bitsL, List.reverse_nil, Option.some.injEq]
    constructor
    · rintro rfl; exact ⟨[], .nil, rfl⟩
    · rintro ⟨bl, h, rfl⟩; cases h; rfl
  | cons n ns ih =>
    rw [bitsL_cons, List.reverse_cons]
    constructor
    · rintro ⟨hi, lo, h1, h2, rfl⟩
      obtain ⟨bl, h3, rfl⟩ := ih.mp h2
      exact ⟨bl ++ [hi], List.rel_append h3 (.cons h1 .nil), by simp⟩
    · rintro ⟨bl, h, rfl⟩
      obtain ⟨l1, l2, h1, h2, rfl⟩ : ∃ l1 l2, List.Forall₂ (fun n x => bits ρ n = some x) ns.reverse l1 ∧
          List.Forall₂ (fun n x => bits ρ n = some x) [n] l2 ∧ bl = l1 ++ l2 := by
        refine ⟨bl.take ns.reverse.length, bl.drop ns.reverse.length, ?_, ?_, (List.take_append_drop _ _).symm⟩
        · have := List.forall₂_take ns.reverse.length h; simpa using this
        · have := List.forall₂_drop ns.reverse.length h; simpa using this
      cases h2 with
      | cons h3 h4 =>
        cases h4
        exact ⟨_, _, h3, ih.mpr ⟨_, h1, rfl⟩, by simp⟩

/-- A slice is the list's elements from `l`, padded with unknown bits. -/
theorem bslice_eq {b s : List Bit} {m l : Int} (h0 : 0 ≤ l) (h1 : l ≤ m) :
    bslice b m l = some s ↔ s = (b.drop l.toNat).take (m - l + 1).toNat ++
      List.replicate ((m - l + 1).toNat - (b.length - l.toNat)) none := by
  unfold bslice
  rw [if_neg (by omega)]
  simp only [Option.some.injEq]
  have key : (List.range (m - l + 1).toNat).map (fun i => (b[l.toNat + i]?).getD none) =
      (b.drop l.toNat).take (m - l + 1).toNat ++
      List.replicate ((m - l + 1).toNat - (b.length - l.toNat)) none := by
    apply List.ext_getElem?
    intro i
    by_cases hi : i < (m - l + 1).toNat
    · rw [List.getElem?_map, List.getElem?_range hi]
      simp only [Option.map_some]
      by_cases hb : l.toNat + i < b.length
      · rw [List.getElem?_append_left (by simp; omega), List.getElem?_take, if_pos hi, List.getElem?_drop]
        simp [hb]
      · rw [List.getElem?_append_right (by simp; omega)]
        rw [List.getElem?_replicate, if_pos (by simp; omega)]
        simp [List.getElem?_eq_none (by omega : b.length ≤ l.toNat + i)]
    · rw [List.getElem?_eq_none (by simp; omega), List.getElem?_eq_none]
      simp; omega
  rw [key]
  exact eq_comm

/-! ### the scanning loop -/

def wsum (xs : List (Int × DF)) : Int := (xs.map (·.1)).sum

@[simp] theorem wsum_cons {x xs} : wsum (x :: xs) = x.1 + wsum xs := by simp [wsum]
@[simp] theorem wsum_nil : wsum [] = 0 := rfl
@[simp] theorem wsum_append {xs ys} : wsum (xs ++ ys) = wsum xs + wsum ys := by simp [wsum]

theorem wsum_nonneg {xs : List (Int × DF)} (h : ∀ x ∈ xs, 1 ≤ x.1) : 0 ≤ wsum xs := by
  induction xs with
  | nil => simp
  | cons x xs ih =>
    have := h x (by simp); have := ih (fun y hy => h y (by simp [hy])); simp; omega

/-- The nodes of the scanned operands, most significant first. -/
def usedOf (xs : List (Int × DF)) : List DF := (xs.map (·.2)).reverse

/-- The loop after the first used operand. -/
theorem takeLoop_use {ctx : OptCtx} {k : Nat} {L M : Int} {xs : List (Int × DF)} {st st' : TakeSt}
    (hw : ∀ x ∈ xs, 1 ≤ x.1) (hf : ∀ x ∈ xs, Folded ctx x.2) (hu : st.use = true) (hL : L < st.offset)
    (hM : st.offset ≤ M) (h : ctx.takeLoop k L M xs st = .ok st') :
    (st.offset + wsum xs ≤ M ∧ st' = { st with
      used := usedOf xs ++ st.used
      widsum := st.widsum + wsum xs
      offset := st.offset + wsum xs }) ∨
    ∃ mid w n hi, xs = mid ++ (w, n) :: hi ∧ st.offset + wsum mid ≤ M ∧ M < st.offset + wsum mid + w ∧
      st' = { st with
        used := usedOf (mid ++ [(w, n)]) ++ st.used
        widsum := st.widsum + wsum mid + w
        offset := st.offset + wsum mid
        msb := st.offset + wsum mid + w - 1
        msboff := st.offset + wsum mid + w - 1 - M } := by
  induction xs generalizing st with
  | nil =>
    simp only [OptCtx.takeLoop, ok_inj] at h
    left; subst h; simp [usedOf, hM]
  | cons x xs ih =>
    obtain ⟨w, n⟩ := x
    have hw1 := hw (w, n) (by simp)
    simp only at hw1
    simp only [OptCtx.takeLoop, TakeSt.enter] at h
    rw [if_neg (by omega)] at h
    simp only [OptCtx.takeUse, hu, if_true, bind_ok, ok_inj] at h
    obtain ⟨s1, ⟨n', hn, rfl⟩, h⟩ := h
    have := hf (w, n) (by simp) _ _ hn
    simp only at this; subst this
    simp only at h
    split at h
    · rename_i hc
      simp only [ok_inj] at h
      right
      refine ⟨[], w, n', xs, by simp, by simp; omega, by simp; omega, ?_⟩
      subst h; simp [usedOf, hu]
    · rename_i hc
      rcases ih (fun y hy => hw y (by simp [hy])) (fun y hy => hf y (by simp [hy])) (by simpa using hu)
        (by simp; omega) (by simp; omega) h with ⟨h1, h2⟩ | ⟨mid, w1, n1, hi, h1, h2, h3, h4⟩
      · left
        simp only at h1 h2
        refine ⟨by simp; omega, ?_⟩
        rw [h2]; simp [usedOf, hu, add_assoc]
      · right
        simp only at h2 h3 h4
        refine ⟨(w, n') :: mid, w1, n1, hi, by simp [h1], ?_, ?_, ?_⟩
        · simp at h2 ⊢; omega
        · simp at h3 ⊢; omega
        · rw [h4]; simp [usedOf, hu, add_assoc]

/-- The whole loop: nothing is used, or the used operands start at the one that contains the lower cut. -/
theorem takeLoop_spec {ctx : OptCtx} {k : Nat} {L M : Int} {xs : List (Int × DF)} {st st' : TakeSt}
    (hw : ∀ x ∈ xs, 1 ≤ x.1) (hf : ∀ x ∈ xs, Folded ctx x.2) (hu : st.use = false) (hun : st.used = [])
    (hws : st.widsum = 0) (hmo : st.msboff = -1) (hL : st.offset ≤ L)
    (hM : L ≤ M) (h : ctx.takeLoop k L M xs st = .ok st') :
    (st.offset + wsum xs ≤ L ∧ st'.used = []) ∨
    (∃ lo mid, xs = lo ++ mid ∧ mid ≠ [] ∧ st.offset + wsum lo ≤ L ∧ (∀ w n m, mid = (w, n) :: m → L < st.offset + wsum lo + w) ∧
      st.offset + wsum xs ≤ M ∧ st'.used = usedOf mid ∧ st'.widsum = wsum mid ∧ st'.lsb = st.offset + wsum lo ∧
      st'.lsboff = L - (st.offset + wsum lo) ∧ st'.msboff = -1) ∨
    (∃ lo mid w n hi, xs = lo ++ (mid ++ (w, n) :: hi) ∧ st.offset + wsum lo ≤ L ∧
      (∀ w' n' m, mid ++ [(w, n)] = (w', n') :: m → L < st.offset + wsum lo + w') ∧
      st.offset + wsum lo + wsum mid ≤ M ∧ M < st.offset + wsum lo + wsum mid + w ∧
      st'.used = usedOf (mid ++ [(w, n)]) ∧ st'.lsb = st.offset + wsum lo ∧
      st'.lsboff = L - (st.offset + wsum lo) ∧ st'.msb = st.offset + wsum lo + wsum mid + w - 1 ∧
      st'.msboff = st.offset + wsum lo + wsum mid + w - 1 - M) := by
  induction xs generalizing st with
  | nil =>
    simp only [OptCtx.takeLoop, ok_inj] at h
    left; subst h; simp [hun, hL]
  | cons x xs ih =>
    obtain ⟨w, n⟩ := x
    have hw1 := hw (w, n) (by simp)
    simp only at hw1
    have hwx : ∀ y ∈ xs, 1 ≤ y.1 := fun y hy => hw y (by simp [hy])
    have hfx : ∀ y ∈ xs, Folded ctx y.2 := fun y hy => hf y (by simp [hy])
    have hnn := wsum_nonneg hwx
    simp only [OptCtx.takeLoop, TakeSt.enter] at h
    by_cases hin : L ≥ st.offset ∧ L < st.offset + w
    · rw [if_pos hin] at h
      simp only [OptCtx.takeUse, if_true, bind_ok, ok_inj] at h
      obtain ⟨s1, ⟨n', hn, rfl⟩, h⟩ := h
      have := hf (w, n) (by simp) _ _ hn
      simp only at this; subst this
      right
      simp only at h
      split at h
      · rename_i hc
        simp only [ok_inj] at h
        right
        refine ⟨[], [], w, n', xs, by simp, by simp; omega, ?_, by simp; omega, by simp; omega, ?_⟩
        · intro w' n2 m hh; simp at hh; obtain ⟨⟨rfl, rfl⟩, rfl⟩ := hh; simp; omega
        subst h; simp [usedOf, hun]
      · rename_i hc
        rcases takeLoop_use hwx hfx (by rfl) (by simp; omega) (by simp; omega) h with
          ⟨h1, h2⟩ | ⟨mid, w1, n1, hi, h1, h2, h3, h4⟩
        · left
          simp only at h1 h2
          refine ⟨[], (w, n') :: xs, by simp, by simp, by simp; omega, ?_, by simp; omega, ?_⟩
          · intro w' n2 m hh; simp at hh; obtain ⟨⟨rfl, rfl⟩, rfl⟩ := hh; simp; omega
          subst h2; simp [usedOf, hun, hws, hmo]
        · right
          simp only at h2 h3 h4
          refine ⟨[], (w, n') :: mid, w1, n1, hi, by simp [h1], by simp; omega, ?_, by simp; omega, by simp; omega, ?_⟩
          · intro w' n2 m hh; simp at hh; obtain ⟨⟨rfl, rfl⟩, rfl⟩ := hh; simp; omega
          subst h4; simp [usedOf, hun]; omega
    · rw [if_neg hin] at h
      simp only [OptCtx.takeUse, hu] at h
      simp only [Bool.false_eq_true, if_false, bind_ok, ok_inj] at h
      obtain ⟨s1, rfl, h⟩ := h
      rw [if_neg (by omega)] at h
      rcases ih hwx hfx (by simpa using hu) (by simpa using hun) (by simpa using hws) (by simpa using hmo)
        (by simp; omega) h with ⟨h1, h2⟩ | ⟨lo, mid, h1, h2, h3, h4, h5, h6, h7, h8, h9, h10⟩ |
          ⟨lo, mid, w1, n1, hi, h1, h2, h3, h4, h5, h6, h7, h8, h9, h10⟩
      · left; simp only at h1; exact ⟨by simp; omega, h2⟩
      · right; left
        simp only at *
        refine ⟨(w, n) :: lo, mid, by simp [h1], h2, by simp; omega, ?_, by simp; omega, h6, h7, by simp; omega,
          by simp; omega, h10⟩
        intro w' n' m hh; have := h4 w' n' m hh; simp; omega
      · right; right
        simp only at *
        refine ⟨(w, n) :: lo, mid, w1, n1, hi, by simp [h1], by simp; omega, ?_, by simp; omega, by simp; omega,
          h6, by simp; omega, by simp; omega, by simp; omega, by simp; omega⟩
        intro w' n' m hh; have := h3 w' n' m hh; simp; omega

/-! ### the theorem -/

/-- An operand with its width and bits. -/
def OpRel (ρ : Env) (x : Int × DF) (b : List Bit) : Prop := bits ρ x.2 = some b ∧ x.1 = b.length ∧ b ≠ []

theorem OpRel.pos {ρ x b} (h : OpRel ρ x b) : 1 ≤ x.1 := by
  have := h.2.1
  have := List.length_pos_iff.mpr h.2.2
  omega

theorem oprel_wsum {ρ xs bl} (h : List.Forall₂ (OpRel ρ) xs bl) : wsum xs = bl.flatten.length := by
  induction h with
  | nil => rfl
  | cons h1 _ ih => rw [wsum_cons, ih, h1.2.1]; simp

theorem oprel_sum {ρ xs bl} (h : List.Forall₂ (OpRel ρ) xs bl) : ((bl.map List.length).sum : Int) = wsum xs := by
  rw [oprel_wsum h, List.length_flatten]

theorem oprel_bits {ρ xs bl} (h : List.Forall₂ (OpRel ρ) xs bl) : bitsL ρ (usedOf xs) = some bl.flatten := by
  rw [bitsL_rev]
  refine ⟨bl, ?_, rfl⟩
  simp only [usedOf, List.reverse_reverse]
  induction h with
  | nil => exact .nil
  | cons h1 _ ih => exact .cons h1.1 ih

theorem oprel_pos {ρ xs bl} (h : List.Forall₂ (OpRel ρ) xs bl) : ∀ x ∈ xs, 1 ≤ x.1 := by
  induction h with
  | nil => simp
  | cons h1 _ ih =>
    intro x hx
    rcases List.mem_cons.mp hx with rfl | hx
    · exact h1.pos
    · exact ih x hx

theorem forall₂_split {α β : Type} {R : α → β → Prop} {l1 l2 : List α} {r : List β}
    (h : List.Forall₂ R (l1 ++ l2) r) : ∃ r1 r2, r = r1 ++ r2 ∧ List.Forall₂ R l1 r1 ∧ List.Forall₂ R l2 r2 :=
  ⟨r.take l1.length, r.drop l1.length, (List.take_append_drop _ _).symm,
    by simpa using List.forall₂_take l1.length h, by simpa using List.forall₂_drop l1.length h⟩

theorem boundary_gap {a c : List Nat} {w : Nat} {p : Int} (h : Boundary (a ++ w :: c) p) :
    p ≤ a.sum ∨ (a.sum + w : Int) ≤ p := by
  obtain ⟨j, rfl⟩ := h
  by_cases hj : j ≤ a.length
  · left
    rw [List.take_append_of_le_length hj]
    have : (a.take j).sum + (a.drop j).sum = a.sum := by rw [← List.sum_append, List.take_append_drop]
    omega
  · right
    obtain ⟨d, rfl⟩ : ∃ d, j = a.length + (d + 1) := ⟨j - a.length - 1, by omega⟩
    rw [List.take_length_add_append]
    simp only [List.take_succ_cons, List.sum_append, List.sum_cons]
    push_cast; omega

theorem bits_undef {ρ w} : bits ρ (.undef (some w)) = some (List.replicate w.toNat none) := by simp [bits]

theorem bits_concat {ρ ns} : bits ρ (.concat ns) = bitsL ρ ns := by simp [bits]

theorem bits_psel_evi {ρ v m l b s} (hv : bits ρ v = some b) (h : bslice b m l = some s) :
    bits ρ (.psel v (.evi m (some 32)) (.evi l (some 32))) = some s := by
  simp [bits, hv, sem, h]

theorem bits_ev {ρ v w a b x} (h : bits ρ (.ev v w a b) = some x) : ∃ n, v = .int n ∧ x = bitsOf n (w.getD ρ.dw) := by
  cases v <;> simp [bits, sem] at h
  exact ⟨_, rfl, h.symm⟩

/-- Folding a part select from bit 0 keeps the low bits. -/
theorem fold_low {ctx : OptCtx} {k : Nat} {ρ : Env} {n x : DF} {m : Int} {b : List Bit} (hf : Folded ctx n)
    (hb : bits ρ n = some b) (h0 : 0 ≤ m) (h1 : m + 1 ≤ b.length)
    (h : ctx.optConst k (.psel n (.evi m (some 32)) (.evi 0 (some 32))) = .ok x) :
    bits ρ x = some (b.take (m + 1).toNat) := by
  cases k with
  | zero => simp [OptCtx.optConst] at h
  | succ k =>
    unfold OptCtx.optConst at h
    simp only [bind_ok] at h
    obtain ⟨v', hv, m', hm, l', hl, h⟩ := h
    cases hf _ _ hv
    cases k with
    | zero => simp [OptCtx.optConst] at hm
    | succ k =>
      simp only [OptCtx.optConst, ok_inj] at hm hl
      subst hm; subst hl
      have hslice : bslice b m 0 = some (b.take (m + 1).toNat) := by
        rw [bslice_eq le_rfl h0]
        have : (m - 0 + 1).toNat - (b.length - (0 : Int).toNat) = 0 := by simp; omega
        rw [this]; simp
      split at h
      · rename_i hc
        cases hn : n <;> simp [hn, DF.isEv] at hc
        rename_i v w isf iss
        subst hn
        obtain ⟨z, rfl, rfl⟩ := bits_ev hb
        simp only [evalPartselect, DF.intAttr, DF.valueAttr, bind_ok, PyVal.toInt, ok_inj, exists_eq_left', pyShr] at h
        obtain ⟨p, hp, h⟩ := h
        simp at hp
        subst hp
        rw [if_neg (by omega)] at h
        simp only [ok_inj] at h
        subst h
        simp only [bits, Option.getD_some, Option.some.injEq]
        have hlen : (m + 1).toNat ≤ (w.getD ρ.dw).toNat := by
          have : (bitsOf z (w.getD ρ.dw)).length = (w.getD ρ.dw).toNat := by simp [bitsOf]
          rw [this] at h1; omega
        have e : (m - 0 + 1) = m + 1 := by omega
        rw [e]
        have hgen : ∀ y : Int, (∀ i < (m + 1).toNat, ibit y i = ibit z i) →
            bitsOf y (m + 1) = (bitsOf z (w.getD ρ.dw)).take (m + 1).toNat := by
          intro y hy
          unfold bitsOf
          rw [← List.map_take, List.take_range, min_eq_left hlen]
          apply List.map_congr_left
          intro i hi
          rw [hy i (List.mem_range.mp hi)]
        apply hgen
        intro i hi
        split
        · rw [Int.fmod_eq_emod_of_nonneg _ (by positivity), ibit_emod]; simp [hi]
        · rfl
      · simp only [ok_inj] at h
        subst h
        exact bits_psel_evi hb hslice

/-- The second loop, for cuts that start at bit 0. -/
theorem takeCut_bits {ctx : OptCtx} {k : Nat} {ρ : Env} {mid : List (Int × DF)} {w : Int} {n : DF} {mo : Int}
    {total cnt : Nat} {rest : List Int} {cs bl b}
    (hf : ∀ x ∈ mid ++ [(w, n)], Folded ctx x.2) (hr : List.Forall₂ (OpRel ρ) mid bl) (hr1 : OpRel ρ (w, n) b)
    (hmo : 0 < mo) (hmw : mo < w) (htot : total = cnt + mid.length + 1)
    (h : ctx.takeCut k 0 mo total cnt ((mid ++ [(w, n)]).map (·.1) ++ rest) ((mid ++ [(w, n)]).map (·.2)) = .ok cs) :
    List.Forall₂ (fun n x => bits ρ n = some x) cs (bl ++ [b.take (w - mo).toNat]) := by
  induction hr generalizing cnt cs with
  | nil =>
    simp only [List.nil_append, List.map_cons, List.map_nil, OptCtx.takeCut, List.cons_append, headIdx, bind_ok, ok_inj,
      exists_eq_left', takeCutTree, List.tail_cons] at h
    obtain ⟨x, hx, rfl⟩ := h
    rw [if_neg (by omega), if_pos ⟨by simp at htot; omega, hmo⟩] at hx
    have hw := hr1.2.1
    simp only at hw
    have := fold_low (hf (w, n) (by simp)) hr1.1 (by omega) (by omega) hx
    rw [show w - mo - 1 + 1 = w - mo by omega] at this
    exact .cons this .nil
  | @cons y c mid bl h1 h2 ih =>
    simp only [List.cons_append, List.map_cons, OptCtx.takeCut, headIdx, bind_ok, ok_inj,
      exists_eq_left', takeCutTree, List.tail_cons] at h
    obtain ⟨x, hx, xs, hxs, rfl⟩ := h
    simp only [List.length_cons] at htot
    rw [if_neg (by omega), if_neg (by omega)] at hx
    cases hf y (by simp) _ _ hx
    exact .cons h1.1 (ih (fun z hz => hf z (by simp only [List.cons_append, List.mem_cons]; exact Or.inr hz)) (by omega) hxs)

theorem getWidths_rel {ctx : OptCtx} {k : Nat} {ρ : Env} {ns : List DF} {ws bl} (hw : ∀ n ∈ ns, WidthOK ctx k ρ n)
    (h : ctx.getWidths k ns = .ok ws) (hb : List.Forall₂ (fun n x => bits ρ n = some x) ns bl) :
    List.Forall₂ (OpRel ρ) (ws.zip ns) bl ∧ (ws.zip ns).map (·.2) = ns ∧ (ws.zip ns).map (·.1) = ws := by
  induction hb generalizing ws with
  | nil =>
    simp only [OptCtx.getWidths, ok_inj] at h
    subst h; exact ⟨.nil, rfl, rfl⟩
  | cons h1 _ ih =>
    simp only [OptCtx.getWidths, bind_ok, ok_inj] at h
    obtain ⟨w, hw1, ws', hws, rfl⟩ := h
    obtain ⟨a, b, c⟩ := ih (fun n hn => hw n (by simp [hn])) hws
    refine ⟨?_, ?_, ?_⟩
    · rw [List.zip_cons_cons]
      exact .cons ⟨h1, hw _ (by simp) w _ hw1 h1⟩ a
    · simp [b]
    · simp [c]

theorem usedOf_snoc {mid : List (Int × DF)} {x} : usedOf (mid ++ [x]) = x.2 :: usedOf mid := by simp [usedOf]

/-- **C11** (partial) For every concatenation of folded operands whose computed widths are right, and every cut
`GoodCut`, takePart returns a tree denoting exactly the selected bits.
Missing: the remaining cuts, on which the code is wrong (`C11_inner_cut_false`, `C11_straddling_cut_false`). -/
theorem C11_takePart_bits_partial (ctx : OptCtx) (k : Nat) (ρ : Env) (ns : List DF) (M L : Int) (wm wl : Option Int)
    (r : DF) (bl : List (List Bit)) (s : List Bit)
    (hf : ∀ n ∈ ns, Folded ctx n) (hw : ∀ n ∈ ns, WidthOK ctx k ρ n)
    (hbl : List.Forall₂ (fun n b => bits ρ n = some b) ns.reverse bl)
    (hcut : GoodCut (bl.map List.length) M L)
    (h : ctx.takePart k ns (.evi M wm) (.evi L wl) = .ok r)
    (hs : bits ρ (.psel (.concat ns) (.evi M wm) (.evi L wl)) = some s) : bits ρ r = some s := by
  have hB : bits ρ (.concat ns) = some bl.flatten := by
    rw [bits_concat]; exact bitsL_rev.mpr ⟨bl, hbl, rfl⟩
  have hsl : bslice bl.flatten M L = some s := by
    simp only [bits, obind_some] at hs
    obtain ⟨b, hb, x, hx, y, hy, hs⟩ := hs
    rw [bits_concat] at hB
    rw [hB] at hb; cases hb
    simp only [sem, Option.some.injEq] at hx hy
    subst hx; subst hy; exact hs
  have hLM : 0 ≤ L ∧ L ≤ M := by
    unfold bslice at hsl
    split at hsl
    · simp at hsl
    · omega
  obtain ⟨hL0, hLM⟩ := hLM
  rw [bslice_eq hL0 hLM] at hsl
  unfold OptCtx.takePart at h
  simp only [bind_ok, DF.intAttr, DF.valueAttr, PyVal.toInt, ok_inj, exists_eq_left', min_eq_right hLM,
    max_eq_left hLM] at h
  obtain ⟨ws, hws, st, hst, h⟩ := h
  obtain ⟨hrel, hsnd, hfst⟩ := getWidths_rel (fun n hn => hw n (by simpa using hn)) hws hbl
  generalize hxs : ws.zip ns.reverse = xs at hrel hsnd hfst hst
  have hfx : ∀ x ∈ xs, Folded ctx x.2 := by
    intro x hx
    apply hf
    have : x.2 ∈ xs.map (·.2) := List.mem_map_of_mem hx
    rw [hsnd] at this; simpa using this
  have hsum := oprel_sum hrel
  have hlen := oprel_wsum hrel
  rcases takeLoop_spec (oprel_pos hrel) hfx rfl rfl rfl rfl (by simpa using hL0) hLM hst with
    ⟨h1, h2⟩ | ⟨lo, mid, h1, h2, h3, h4, h5, h6, h7, h8, h9, h10⟩ |
      ⟨lo, mid, w1, n1, hi, h1, h2, h3, h4, h5, h6, h7, h8, h9, h10⟩
  · -- above the vector
    rw [h2] at h
    simp only [ok_inj] at h
    subst h
    rw [bits_undef, hsl, List.drop_eq_nil_of_le (by simp at h1; omega)]
    simp at h1 ⊢
    omega
  · -- the upper cut is above the vector
    simp only [zero_add] at h3 h4 h5 h8 h9
    subst h1
    obtain ⟨bLo, bMid, rfl, rLo, rMid⟩ := forall₂_split hrel
    have lLo := oprel_wsum rLo
    have lMid := oprel_wsum rMid
    have sLo := oprel_sum rLo
    have sMid := oprel_sum rMid
    have pLo := wsum_nonneg (oprel_pos rLo)
    obtain ⟨⟨wf, nf⟩, midt, rfl⟩ := List.exists_cons_of_ne_nil h2
    have hwf := h4 wf nf midt rfl
    have hUsed := oprel_bits rMid
    rw [← h6] at hUsed
    have hgood : st.lsboff = 0 ∨ lo = [] := by
      rcases hcut with hc | hc | ⟨hc, _⟩ | ⟨hc, _⟩
      · simp only [List.map_append, List.sum_append] at hc; push_cast at hc
        cases rMid with
        | cons r1 r2 => have := wsum_nonneg (oprel_pos r2); simp at sMid hc; omega
      · left; omega
      · left
        cases rMid with
        | @cons _ b1 _ bt r1 r2 =>
          simp only [List.map_append, List.map_cons] at hc
          have := boundary_gap hc
          have := r1.2.1
          simp only at this
          omega
      · right
        cases rLo with
        | nil => rfl
        | @cons x0 b0 lt bt r1 r2 =>
          exfalso
          have := r1.2.1
          have := wsum_nonneg (oprel_pos r2)
          simp only [List.cons_append, List.map_cons, List.headD_cons] at hc
          simp only [wsum_cons] at h3
          omega
    have hlast : bits ρ (.concat st.used) = some bMid.flatten := by rw [bits_concat]; exact hUsed
    have hmidt : 0 ≤ wsum midt := by
      have := oprel_pos rMid
      exact wsum_nonneg (fun x hx => this x (by simp [hx]))
    have hLt : L < wsum lo + wsum ((wf, nf) :: midt) := by simp; omega
    have hpad : (M - L + 1).toNat - ((bLo ++ bMid).flatten.length - L.toNat) = (M + 1 - wsum (lo ++ (wf, nf) :: midt)).toNat := by
      simp only [wsum_append] at *; omega
    have hdrop : ((bLo ++ bMid).flatten.drop L.toNat).take (M - L + 1).toNat = (bLo ++ bMid).flatten.drop L.toNat := by
      apply List.take_of_length_le
      simp only [List.length_drop]
      omega
    rw [hpad, hdrop] at hsl
    rw [h6, usedOf] at h
    cases hu : ((wf, nf) :: midt).map (·.2) with
    | nil => simp at hu
    | cons _ _ =>
    rw [hu] at h
    have hune : ∃ u us, st.used = u :: us := by
      rw [h6]
      exact List.exists_cons_of_ne_nil (by simp [usedOf])
    obtain ⟨u, us, hus⟩ := hune
    rw [show (_ :: _ : List DF).reverse = u :: us by rw [← hus, h6, usedOf, hu]] at h
    simp only [hus] at h
    rw [if_pos (by omega)] at h
    split at h
    · rename_i hz
      simp only [ok_inj] at h
      subst h
      have hLlo : L = wsum lo := by omega
      rw [bits_concat, bitsL_cons]
      refine ⟨_, _, bits_undef, by rw [← hus]; exact hUsed, ?_⟩
      rw [hsl, List.flatten_append, show L.toNat = bLo.flatten.length by omega, List.drop_left]
      congr 2
      rw [h7]; simp only [wsum_append]; omega
    · rename_i hnz
      have hlo := hgood.resolve_left hnz
      subst hlo
      cases rLo
      simp only [List.nil_append, wsum_nil] at *
      have hgen : ∀ v : DF, bits ρ v = some bMid.flatten → bits ρ (.concat [.undef (some (M - L + 1 - st.widsum + st.lsboff)),
          .psel v (.evi (st.widsum - 1) (some 32)) (.evi (st.lsb + st.lsboff) (some 32))]) = some s := by
        intro v hv
        rw [bits_concat, bitsL_cons]
        have hmid : L < wsum ((wf, nf) :: midt) := by simpa using hLt
        refine ⟨_, bMid.flatten.drop L.toNat, bits_undef, ?_, ?_⟩
        · rw [bitsL_single]
          apply bits_psel_evi hv
          rw [h8, h9, h7]
          rw [bslice_eq (by omega) (by omega)]
          rw [show (0 + (L - 0) : Int) = L by omega]
          rw [List.take_of_length_le (by rw [List.length_drop]; omega)]
          rw [show (wsum ((wf, nf) :: midt) - 1 - L + 1).toNat - (bMid.flatten.length - L.toNat) = 0 by omega]
          simp
        · rw [hsl]
          congr 2
          omega
      split at h
      · rename_i he
        subst he
        simp only [ok_inj] at h
        subst h
        apply hgen
        rw [← bitsL_single, ← hus]; exact hUsed
      · simp only [ok_inj] at h
        subst h
        rw [← hus] 
        exact hgen _ hlast
  · -- both cuts inside the vector
    simp only [zero_add] at h2 h3 h4 h5 h7 h8 h9 h10
    subst h1
    obtain ⟨bLo, bR, rfl, rLo, rR⟩ := forall₂_split hrel
    obtain ⟨bMid, bH, rfl, rMid, rH⟩ := forall₂_split rR
    cases rH with
    | @cons _ b1 _ bHi r1 rHi =>
    have lLo := oprel_wsum rLo
    have lMid := oprel_wsum rMid
    have lHi := oprel_wsum rHi
    have sLo := oprel_sum rLo
    have sMid := oprel_sum rMid
    have sHi := oprel_sum rHi
    have pLo := wsum_nonneg (oprel_pos rLo)
    have pMid := wsum_nonneg (oprel_pos rMid)
    have pHi := wsum_nonneg (oprel_pos rHi)
    have hw1 := r1.2.1
    simp only at hw1
    have rUsed : List.Forall₂ (OpRel ρ) (mid ++ [(w1, n1)]) (bMid ++ [b1]) := List.rel_append rMid (.cons r1 .nil)
    have hUsed := oprel_bits rUsed
    rw [← h6] at hUsed
    have hgood : (st.lsboff = 0 ∧ st.msboff = 0) ∨ (lo = [] ∧ (L = 0 ∨ mid = [])) := by
      rcases hcut with hc | hc | ⟨hc, hc'⟩ | ⟨hc, hc'⟩
      · exfalso
        simp only [List.map_append, List.sum_append, List.map_cons, List.sum_cons] at hc; push_cast at hc
        omega
      · right
        refine ⟨?_, Or.inl hc⟩
        cases rLo with
        | nil => rfl
        | cons r1 r2 => exfalso; have := r1.pos; have := wsum_nonneg (oprel_pos r2); simp at h2; omega
      · left
        constructor
        · cases rMid with
          | nil =>
            have := h3 w1 n1 [] rfl
            simp only [List.map_append, List.map_cons, List.map_nil, List.nil_append] at hc
            have := boundary_gap hc
            omega
          | @cons x0 b0 lt bt q1 q2 =>
            have := h3 x0.1 x0.2 _ rfl
            simp only [List.map_append, List.map_cons, List.cons_append] at hc
            have := boundary_gap hc
            have := q1.2.1
            omega
        · rcases hc' with hc' | hc'
          · rw [← List.append_assoc] at hc'
            simp only [List.map_append, List.map_cons] at hc'
            have := boundary_gap hc'
            simp only [List.sum_append] at this
            push_cast at this
            omega
          · exfalso
            simp only [List.map_append, List.sum_append, List.map_cons, List.sum_cons] at hc'; push_cast at hc'
            omega
      · right
        cases rLo with
        | @cons x0 b0 lt bt q1 q2 =>
          exfalso
          have := q1.2.1
          have := wsum_nonneg (oprel_pos q2)
          simp only [List.cons_append, List.map_cons, List.headD_cons] at hc
          simp only [wsum_cons] at h2
          omega
        | nil =>
          refine ⟨rfl, ?_⟩
          right
          cases rMid with
          | nil => rfl
          | @cons x0 b0 lt bt q1 q2 =>
            exfalso
            have := q1.2.1
            have := wsum_nonneg (oprel_pos q2)
            simp only [List.nil_append, List.cons_append, List.map_cons, List.headD_cons] at hc'
            simp only [wsum_cons] at h4
            rcases hc' with hc' | hc'
            · simp only [wsum_nil] at h4; omega
            · simp only [List.map_append, List.sum_append, List.map_cons, List.sum_cons] at hc'; push_cast at hc'
              simp at h5 sMid lMid; omega
    rw [usedOf_snoc] at h6
    simp only at h6
    rw [h6] at h
    simp only at h
    rw [if_neg (by omega)] at h
    have hpad : (M - L + 1).toNat - ((bLo ++ (bMid ++ b1 :: bHi)).flatten.length - L.toNat) = 0 := by
      simp only [List.flatten_append, List.flatten_cons, List.length_append]; omega
    rw [hpad] at hsl
    simp only [List.replicate_zero, List.append_nil] at hsl
    split at h
    · rename_i hz
      obtain ⟨hz1, hz2⟩ := hz
      have : bitsL ρ st.used = some s := by
        rw [hUsed, hsl, List.flatten_append (L₁ := bLo), show L.toNat = bLo.flatten.length by omega, List.drop_left]
        have : bMid ++ b1 :: bHi = (bMid ++ [b1]) ++ bHi := by simp
        rw [this, List.flatten_append (L₁ := bMid ++ [b1]), List.take_left' ?_]
        simp only [List.flatten_append, List.length_append, List.flatten_cons, List.flatten_nil, List.append_nil]
        omega
      rw [h6] at this
      split at h
      · rename_i he
        simp only [ok_inj] at h
        subst h
        rw [he, bitsL_single] at this
        exact this
      · simp only [ok_inj] at h
        subst h
        rw [bits_concat]; exact this
    · rename_i hnz
      obtain ⟨rfl, hg⟩ := hgood.resolve_left hnz
      cases rLo
      simp only [List.nil_append, wsum_nil, zero_add, List.flatten_nil] at *
      rw [show st.msb - st.msboff = M by omega, show st.lsb + st.lsboff = L by omega] at h
      split at h
      · rename_i he
        simp only [ok_inj] at h
        subst h
        have : mid = [] := by simpa [usedOf] using he
        subst this
        cases rMid
        simp only [List.nil_append, List.flatten_cons, wsum_nil] at *
        apply bits_psel_evi r1.1
        rw [bslice_eq hL0 hLM, hsl]
        rw [show (M - L + 1).toNat - (b1.length - L.toNat) = 0 by omega]
        rw [List.drop_append_of_le_length (by omega), List.take_append_of_le_length (by simp; omega)]
        simp
      · rename_i hne
        have hL : L = 0 := by
          rcases hg with hg | hg
          · exact hg
          · exfalso; apply hne; simp [hg, usedOf]
        subst hL
        simp only [bind_ok, ok_inj] at h
        obtain ⟨cs, hcs, rfl⟩ := h
        have hlo0 : st.lsboff = 0 := by omega
        rw [hlo0] at hcs
        have hrev : (n1 :: usedOf mid).reverse = (mid ++ [(w1, n1)]).map (·.2) := by simp [usedOf]
        have hwsplit : ws = (mid ++ [(w1, n1)]).map (·.1) ++ hi.map (·.1) := by rw [← hfst]; simp
        rw [hrev, hwsplit] at hcs
        have hc := takeCut_bits (fun x hx => hfx x (by
          simp only [List.mem_append, List.mem_cons, List.not_mem_nil, or_false] at hx ⊢; tauto)) rMid r1
          (by omega) (by omega) (by simp [usedOf]) hcs
        have hbc : bits ρ (.concat cs.reverse) = some (bMid ++ [b1.take (w1 - st.msboff).toNat]).flatten := by
          rw [bits_concat]
          exact bitsL_rev.mpr ⟨_, by simpa using hc, rfl⟩
        apply bits_psel_evi hbc
        rw [bslice_eq le_rfl hLM, hsl]
        have hl1 : (b1.take (w1 - st.msboff).toNat).length = (w1 - st.msboff).toNat := by
          rw [List.length_take]; omega
        have hl2 : (bMid ++ [b1.take (w1 - st.msboff).toNat]).flatten.length = (M - 0 + 1).toNat := by
          simp only [List.flatten_append, List.flatten_cons, List.flatten_nil, List.append_nil, List.length_append, hl1]
          omega
        rw [hl2]
        simp only [Int.toNat_zero, List.drop_zero, Nat.sub_zero, Nat.sub_self, List.replicate_zero, List.append_nil]
        rw [List.take_of_length_le hl2.le]
        simp only [List.flatten_append, List.flatten_cons, List.flatten_nil, List.append_nil]
        rw [List.take_append, List.take_append, List.take_of_length_le (by omega)]
        rw [show (M - 0 + 1).toNat - bMid.flatten.length = (w1 - st.msboff).toNat by omega]
        rw [show (w1 - st.msboff).toNat - b1.length = 0 by omega]
        simp

/-! Witnesses and non-vacuity: `{a, b}` with 4-bit `a`, `b`. -/

def c11a : ScopeChain := [⟨['a'], .signal, none⟩]
def c11b : ScopeChain := [⟨['b'], .signal, none⟩]
def c11ctx : OptCtx := ⟨[(c11a, ⟨c11a, [.reg], .intc ['3'], .intc ['0'], none⟩),
  (c11b, ⟨c11b, [.reg], .intc ['3'], .intc ['0'], none⟩)], [], 32, fun _ => none⟩
/-- `a = 4'b0110`, `b = 4'b1001`. -/
def c11env : Env := ⟨fun n => if n = c11a then some (6, 4) else if n = c11b then some (9, 4) else none, fun _ => none, 32⟩

/-- **C11** is false of the code: `{a,b}[5:4]`, the two low bits of `a`, becomes `a[5:4]`, which is outside `a`. -/
theorem C11_inner_cut_false :
    c11ctx.takePart 5 [.term c11a, .term c11b] (.evi 5 none) (.evi 4 none) =
      .ok (.psel (.term c11a) (.evi 5 (some 32)) (.evi 4 (some 32))) ∧
    bits c11env (.psel (.concat [.term c11a, .term c11b]) (.evi 5 none) (.evi 4 none)) = some [some false, some true] ∧
    bits c11env (.psel (.term c11a) (.evi 5 (some 32)) (.evi 4 (some 32))) = some [none, none] :=
  ⟨by decide, by decide, by decide⟩

/-- **C11** is false of the code: `{a,b}[5:2]` becomes `{a[1:0],b[3:2]}[5:2]`: the cut is applied twice. -/
theorem C11_straddling_cut_false :
    c11ctx.takePart 5 [.term c11a, .term c11b] (.evi 5 none) (.evi 2 none) =
      .ok (.psel (.concat [.psel (.term c11a) (.evi 1 (some 32)) (.evi 0 (some 32)),
        .psel (.term c11b) (.evi 3 (some 32)) (.evi 2 (some 32))]) (.evi 5 (some 32)) (.evi 2 (some 32))) ∧
    bits c11env (.psel (.concat [.term c11a, .term c11b]) (.evi 5 none) (.evi 2 none)) =
      some [some false, some true, some false, some true] ∧
    bits c11env (.psel (.concat [.psel (.term c11a) (.evi 1 (some 32)) (.evi 0 (some 32)),
        .psel (.term c11b) (.evi 3 (some 32)) (.evi 2 (some 32))]) (.evi 5 (some 32)) (.evi 2 (some 32))) =
      some [some false, some true, none, none] :=
  ⟨by decide, by decide, by decide⟩

/-- Non-vacuity: `{a,b}[5:0]` becomes `{a[1:0],b}[5:0]`. -/
example : (∀ n ∈ [DF.term c11a, .term c11b], Folded c11ctx n) ∧ (∀ n ∈ [DF.term c11a, .term c11b], WidthOK c11ctx 5 c11env n) ∧
    GoodCut [4, 4] 5 0 ∧ GoodCut [4, 4] 7 4 ∧ GoodCut [4, 4] 9 4 ∧ GoodCut [4, 4] 2 1 ∧ GoodCut [4, 4] 8 1 ∧
    c11ctx.takePart 5 [.term c11a, .term c11b] (.evi 5 none) (.evi 0 none) =
      .ok (.psel (.concat [.psel (.term c11a) (.evi 1 (some 32)) (.evi 0 (some 32)), .term c11b])
        (.evi 5 (some 32)) (.evi 0 (some 32))) ∧
    bits c11env (.psel (.concat [.term c11a, .term c11b]) (.evi 5 none) (.evi 0 none)) =
      some [some true, some false, some false, some true, some false, some true] := by
  refine ⟨?_, ?_, Or.inr (Or.inl rfl), Or.inr (Or.inr (Or.inl ⟨⟨1, rfl⟩, Or.inl ⟨2, rfl⟩⟩)),
    Or.inr (Or.inr (Or.inl ⟨⟨1, rfl⟩, Or.inr (by decide)⟩)), Or.inr (Or.inr (Or.inr ⟨by decide, Or.inl (by decide)⟩)),
    Or.inr (Or.inr (Or.inr ⟨by decide, Or.inr (by decide)⟩)), by decide, by decide⟩
  · intro n hn k n' h
    simp only [List.mem_cons, List.not_mem_nil, or_false] at hn
    rcases hn with rfl | rfl <;>
    · cases k with
      | zero => simp [OptCtx.optConst] at h
      | succ k => simp [OptCtx.optConst, c11ctx, Dict.get?] at h; exact h.symm
  · intro n hn w b h1 h2
    have e1 : c11ctx.getWidth 5 (.term c11a) = .ok 4 := by decide
    have e2 : c11ctx.getWidth 5 (.term c11b) = .ok 4 := by decide
    have e3 : c11env.sig c11a = some (6, 4) := by decide
    have e4 : c11env.sig c11b = some (9, 4) := by decide
    simp only [List.mem_cons, List.not_mem_nil, or_false] at hn
    rcases hn with rfl | rfl
    · rw [e1] at h1; simp [bits, e3] at h2; cases h1; subst h2; decide
    · rw [e2] at h1; simp [bits, e4] at h2; cases h1; subst h2; decide

end Pyv
