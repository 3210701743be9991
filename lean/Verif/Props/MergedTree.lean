import Verif.Merge
import Verif.Util
import Verif.BitSem
import Verif.Props.MergePositions
import Verif.Props.ConcatProps
import Verif.Props.MergeTree
/-
  C32, C49: putting the pieces of a signal together.
-/
namespace Pyv

/-! ### Sorting -/

theorem insertOn_perm {α : Type} (key : α → Int) (x : α) (m : List α) : (insertOn key x m).Perm (x :: m) := by
  induction m with
  | nil => exact .refl _
  | cons y m ihm =>
    simp only [insertOn]
    split
    · exact .refl _
    · exact (List.Perm.cons y ihm).trans (List.Perm.swap ..)

theorem sortOn_perm {α : Type} (key : α → Int) (l : List α) : (sortOn key l).Perm l := by
  induction l with
  | nil => exact .refl _
  | cons a l ih => exact (insertOn_perm key a _).trans (List.Perm.cons a ih)

theorem sortOn_sorted {α : Type} (key : α → Int) (l : List α) : (sortOn key l).Pairwise (fun a b => key a ≤ key b) := by
  have ins : ∀ (x : α) (l : List α), l.Pairwise (fun a b => key a ≤ key b) → (insertOn key x l).Pairwise (fun a b => key a ≤ key b) := by
    intro x l
    induction l with
    | nil => intro _; simp [insertOn]
    | cons y ys ih =>
      intro h
      rw [List.pairwise_cons] at h
      simp only [insertOn]
      split
      · rename_i hxy
        rw [List.pairwise_cons]
        refine ⟨?_, List.pairwise_cons.mpr h⟩
        intro z hz
        rcases List.mem_cons.mp hz with rfl | hz
        · exact hxy
        · have := h.1 z hz; omega
      · rename_i hxy
        rw [List.pairwise_cons]
        refine ⟨?_, ih h.2⟩
        intro z hz
        rcases List.mem_cons.mp ((insertOn_perm key x ys).mem_iff.mp hz) with rfl | h'
        · omega
        · exact h.1 z h'
  induction l with
  | nil => simp [sortOn]
  | cons x xs ih => exact ins x _ ih

/-- Sorting is stable: the elements of one key keep their order. -/
theorem sortOn_stable {α : Type} (key : α → Int) (p : α → Bool) (k : Int) (hp : ∀ x, p x = true → key x = k) (l : List α) :
    (sortOn key l).filter p = l.filter p := by
  have ins : ∀ (x : α) (l : List α), (insertOn key x l).filter p = (x :: l).filter p := by
    intro x l
    induction l with
    | nil => rfl
    | cons y ys ih =>
      simp only [insertOn]
      split
      · rfl
      · rename_i hlt
        rw [List.filter_cons, ih]
        cases hx : p x <;> cases hy : p y <;> simp [hx, hy]
        have := hp x hx
        have := hp y hy
        omega
  induction l with
  | nil => rfl
  | cons x xs ih =>
    have : sortOn key (x :: xs) = insertOn key x (sortOn key xs) := rfl
    rw [this, ins, List.filter_cons, List.filter_cons, ih]

theorem zip_map_snd {α β : Type} {R : α → β → Prop} {as : List α} {bs : List β} (h : List.Forall₂ R as bs) :
    (bs.zip as).map (·.2) = as ∧ ∀ p ∈ bs.zip as, R p.2 p.1 := by
  induction h with
  | nil => simp
  | cons h1 _ ih => simp [ih.1]; exact ⟨h1, fun a b hab => ih.2 (a, b) hab⟩

/-- The assignment is to bits `m` to `l`. -/
def Bind.isAt (m l : Int) (b : Bind) : Bool :=
  match b.msb, b.lsb with
  | .ev (.int m') _ _ _, .ev (.int l') _ _ _ => decide (m' = m ∧ l' = l)
  | _, _ => false

theorem Bind.Range.isAt_iff {b : Bind} {m l m' l' : Int} (h : b.Range m l) : b.isAt m' l' = true ↔ m = m' ∧ l = l' := by
  obtain ⟨⟨_, _, _, e1⟩, ⟨_, _, _, e2⟩, _⟩ := h
  simp [Bind.isAt, e1, e2]

theorem bindKey_whole {S : MergeEnv} {b : Bind} {m l k : Int} (hb : b.Whole m l) (h : S.bindKey b = .ok k) : k = l := by
  obtain ⟨⟨⟨_, _, _, e1⟩, ⟨_, _, _, e2⟩, _⟩, e3, _⟩ := hb
  unfold MergeEnv.bindKey at h
  simp only [e2, reduceCtorEq, if_false, DF.intAttr, DF.valueAttr, PyVal.toInt, ok_bind, Bind.constPtr, e3] at h
  split at h
  · simp at h
  · simp only [bind_ok, ok_inj, Option.getD_none, zero_mul, zero_add] at h
    obtain ⟨_, _, _, _, _, _, _, _, h⟩ := h
    exact h.symm

/-- The sorted list of assignments: the same assignments, by ascending lower end, those of one range in their order. -/
theorem sortBinds_whole {S : MergeEnv} {bs s : List Bind} (hb : ∀ b ∈ bs, ∃ m l, b.Whole m l) (h : S.sortBinds bs = .ok s) :
    s.Perm bs ∧ s.Pairwise (fun a b => ∀ m l m' l', a.Whole m l → b.Whole m' l' → l ≤ l') ∧
    ∀ m l, s.filter (Bind.isAt m l) = bs.filter (Bind.isAt m l) := by
  unfold MergeEnv.sortBinds at h
  rw [bind_ok] at h
  obtain ⟨ks, hk, h⟩ := h
  rw [ok_inj] at h; subst h
  obtain ⟨e, hz⟩ := zip_map_snd (mapM_ok.mp hk)
  have mem : ∀ p ∈ ks.zip bs, p.2 ∈ bs := fun p hp => by rw [← e]; exact List.mem_map_of_mem hp
  refine ⟨?_, ?_, ?_⟩
  · have := (sortOn_perm (fun p : Int × Bind => p.1) (ks.zip bs)).map (·.2)
    rwa [e] at this
  · rw [List.pairwise_map]
    refine (sortOn_sorted (fun p : Int × Bind => p.1) (ks.zip bs)).imp_of_mem ?_
    intro a b ha hb' hab m l m' l' wa wb
    have := bindKey_whole wa (hz a (mem_sortOn.mp ha))
    have := bindKey_whole wb (hz b (mem_sortOn.mp hb'))
    omega
  · intro m l
    rw [List.filter_map]
    have e2 : bs.filter (Bind.isAt m l) = ((ks.zip bs).filter (fun p => Bind.isAt m l p.2)).map (·.2) := by
      conv_lhs => rw [← e]
      rw [List.filter_map]; rfl
    rw [e2]
    congr 1
    have key : ∀ (z : List (Int × Bind)), (∀ p ∈ z, p.2 ∈ bs ∧ S.bindKey p.2 = .ok p.1) →
        z.filter (fun p => Bind.isAt m l p.2) = z.filter (fun p => Bind.isAt m l p.2 && decide (p.1 = l)) := by
      intro z hz'
      apply List.filter_congr
      intro p hp
      obtain ⟨h1, h2⟩ := hz' p hp
      obtain ⟨m', l', hw⟩ := hb _ h1
      have hkey := bindKey_whole hw h2
      by_cases hi : Bind.isAt m l p.2 = true
      · have := hw.1.isAt_iff.mp hi
        simp [hi]; omega
      · simp [hi]
    have all : ∀ p ∈ ks.zip bs, p.2 ∈ bs ∧ S.bindKey p.2 = .ok p.1 := fun p hp => ⟨mem p hp, hz p hp⟩
    show (sortOn _ (ks.zip bs)).filter (fun p => Bind.isAt m l p.2) = _
    rw [key _ all, key _ (fun p hp => all p (mem_sortOn.mp hp))]
    exact sortOn_stable _ _ l (by intro x hx; simp at hx; exact hx.2) _

/-! ### C32 -/

/-- The loop of `getMergedTree` on pieces in ascending order: the bits of the operands are the bits of the pieces one
after the other (the unknowns it inserts have a negative width, so no bits). -/
theorem mergedLoop_bits {ρ : Env} (f : Bind → List Bit) : ∀ (s : List Bind) (lm : Int) (out : List DF) (r : List DF) (B : List Bit),
    (∀ b ∈ s, (∃ m l, b.Whole m l) ∧ bits ρ b.tree = some (f b)) → bitsL ρ out.reverse = some B →
    mergedLoop s lm (-1) out = .ok r → bitsL ρ r.reverse = some (B ++ s.flatMap f) := by
  intro s
  induction s with
  | nil =>
    intro lm out r B _ hB h
    simp only [mergedLoop, ok_inj] at h
    subst h; simpa using hB
  | cons b s ih =>
    intro lm out r B hs hB h
    obtain ⟨⟨m, l, ⟨⟨_, _, _, e1⟩, ⟨_, _, _, e2⟩, _⟩, e3, _⟩, hf⟩ := hs b (by simp)
    simp only [mergedLoop, e1, e2, e3, reduceCtorEq, if_false, DF.intAttr, DF.valueAttr, PyVal.toInt, ok_bind, Bind.constPtr,
      Option.getD_none, ne_eq, not_true_eq_false] at h
    have := ih _ _ r (B ++ f b) (fun x hx => hs x (by simp [hx])) ?_ h
    · rw [this]; simp
    · rw [List.reverse_append, List.reverse_append, List.reverse_singleton]
      rw [List.singleton_append, bitsL_cons]
      refine ⟨f b, B, hf, ?_, rfl⟩
      split
      · rename_i hgap
        rw [List.reverse_singleton, List.singleton_append, bitsL_cons]
        refine ⟨[], B, ?_, hB, by simp⟩
        have : (lm - l - 1).toNat = 0 := by omega
        simp [bits, this]
      · simpa using hB

/-- What `getMergedTree` builds: the pieces in ascending order, directly one above the other — whatever the gaps between
them. -/
theorem C32_pieces_stacked (S : MergeEnv) (bs : List Bind) (t : DF) (hb : ∀ b ∈ bs, ∃ m l, b.Whole m l)
    (h : S.mergedTree bs = .ok t) (ρ : Env) (f : Bind → List Bit) (hf : ∀ b ∈ bs, bits ρ b.tree = some (f b)) :
    ∃ s : List Bind, s.Perm bs ∧ s.Pairwise (fun a b => ∀ m l m' l', a.Whole m l → b.Whole m' l' → l ≤ l') ∧
      bits ρ t = some (s.flatMap f) := by
  simp only [MergeEnv.mergedTree, bind_ok, ok_inj] at h
  obtain ⟨s, hs, out, ho, rfl⟩ := h
  obtain ⟨hp, hsort, _⟩ := sortBinds_whole hb hs
  refine ⟨s, hp, hsort, ?_⟩
  rw [bits]
  have := mergedLoop_bits f s (-1) [] out [] (fun b hb' => ⟨hb b (hp.mem_iff.mp hb'), hf b (hp.mem_iff.mp hb')⟩)
    (by simp [bitsL]) ho
  simpa using this

/-- Stacked pieces that leave no gap are at their positions. -/
theorem stacked_positions (f : Bind → List Bit) (top : Int) : ∀ (s : List Bind) (o : Int),
    (∀ b ∈ s, ∃ m l, b.Whole m l ∧ (f b).length = (m - l + 1).toNat) →
    s.Pairwise (fun a b => ∀ m l m' l', a.Whole m l → b.Whole m' l' → m < l') →
    (∀ p : Int, (∃ b ∈ s, ∃ m l, b.Whole m l ∧ l ≤ p ∧ p ≤ m) ↔ o ≤ p ∧ p ≤ top) →
    (s.flatMap f).length = (top + 1 - o).toNat ∧
    ∀ b ∈ s, ∀ m l, b.Whole m l → o ≤ l ∧ bslice (s.flatMap f) (m - o) (l - o) = some (f b) := by
  intro s
  induction s with
  | nil =>
    intro o _ _ hc
    refine ⟨?_, by simp⟩
    have := (hc o).mpr
    by_cases h : o ≤ top
    · simp at this; omega
    · simp; omega
  | cons b s ih =>
    intro o hb hp hc
    rw [List.pairwise_cons] at hp
    obtain ⟨m, l, hw, hl⟩ := hb b (by simp)
    have hlm := hw.2.2
    have hol : o ≤ l ∧ l ≤ top := (hc l).mp ⟨b, by simp, m, l, hw, by omega, by omega⟩
    have hom : o ≤ m ∧ m ≤ top := (hc m).mp ⟨b, by simp, m, l, hw, by omega, by omega⟩
    have hlo : l = o := by
      obtain ⟨b', hb', m', l', hw', h1, h2⟩ := (hc o).mpr ⟨by omega, by omega⟩
      rcases List.mem_cons.mp hb' with e | hb''
      · rw [e] at hw'
        obtain ⟨rfl, rfl⟩ := hw.1.inj hw'.1
        omega
      · have := hp.1 b' hb'' m l m' l' hw hw'; omega
    subst hlo
    obtain ⟨i1, i2⟩ := ih (m + 1) (fun x hx => hb x (by simp [hx])) hp.2 (by
      intro p
      constructor
      · rintro ⟨b', hb', m', l', hw', h1, h2⟩
        have := hp.1 b' hb' m l m' l' hw hw'
        have := (hc p).mp ⟨b', by simp [hb'], m', l', hw', h1, h2⟩
        omega
      · intro hpp
        obtain ⟨b', hb', m', l', hw', h1, h2⟩ := (hc p).mpr (by omega)
        rcases List.mem_cons.mp hb' with e | hb''
        · rw [e] at hw'
          obtain ⟨rfl, rfl⟩ := hw.1.inj hw'.1
          omega
        · exact ⟨b', hb'', m', l', hw', h1, h2⟩)
    refine ⟨by rw [List.flatMap_cons, List.length_append, i1, hl]; omega, ?_⟩
    intro b' hb' m' l' hw'
    have here : ∀ m' l', b.Whole m' l' → l ≤ l' ∧ bslice ((b :: s).flatMap f) (m' - l) (l' - l) = some (f b) := by
      intro m' l' hw'
      obtain ⟨rfl, rfl⟩ := hw.1.inj hw'.1
      refine ⟨by omega, ?_⟩
      rw [bslice, if_neg (by omega), List.flatMap_cons]
      congr 1
      apply List.ext_getElem
      · simp only [List.length_map, List.length_range, hl]; omega
      · intro n h1 h2
        simp only [List.length_map, List.length_range] at h1
        simp only [List.getElem_map, List.getElem_range]
        have : (l - l).toNat + n = n := by omega
        rw [this, List.getElem?_append_left h2, List.getElem?_eq_getElem h2]
        rfl
    rcases List.mem_cons.mp hb' with e | hb''
    · rw [e] at hw' ⊢; exact here m' l' hw'
    · obtain ⟨j1, j2⟩ := i2 b' hb'' m' l' hw'
      refine ⟨by omega, ?_⟩
      rw [← j2, bslice, bslice, if_neg (by have := hw'.2.2; omega), if_neg (by have := hw'.2.2; omega)]
      congr 1
      have e1 : (m' - l - (l' - l) + 1).toNat = (m' - (m + 1) - (l' - (m + 1)) + 1).toNat := by omega
      rw [e1]
      apply List.map_congr_left
      intro n _
      rw [List.flatMap_cons, List.getElem?_append_right (by rw [hl]; omega)]
      congr 2
      rw [hl]; omega

/-- **C32** (for assignments that cover bits 0 to `top` without gaps) In the tree of a signal assigned in disjoint pieces,
every piece is found at its position, and there are no other bits. -/
theorem C32_pieces_placed_partial (S : MergeEnv) (bs : List Bind) (t : DF) (h : S.mergedTree bs = .ok t)
    (top : Int) (htop : -1 ≤ top)
    (hb : ∀ b ∈ bs, ∃ m l, b.Whole m l)
    (hdis : bs.Pairwise (fun a b => ∀ m l m' l', a.Whole m l → b.Whole m' l' → m < l' ∨ m' < l))
    (hcov : ∀ p : Int, (∃ b ∈ bs, ∃ m l, b.Whole m l ∧ l ≤ p ∧ p ≤ m) ↔ 0 ≤ p ∧ p ≤ top)
    (ρ : Env) (f : Bind → List Bit) (hf : ∀ b ∈ bs, bits ρ b.tree = some (f b))
    (hlen : ∀ b ∈ bs, ∀ m l, b.Whole m l → ((f b).length : Int) = m - l + 1) :
    ∃ B, bits ρ t = some B ∧ (B.length : Int) = top + 1 ∧
      ∀ b ∈ bs, ∀ m l, b.Whole m l → bslice B m l = some (f b) := by
  obtain ⟨s, hp, hsort, hB⟩ := C32_pieces_stacked S bs t hb h ρ f hf
  have hdis' : s.Pairwise (fun a b => ∀ m l m' l', a.Whole m l → b.Whole m' l' → m < l' ∨ m' < l) :=
    hp.symm.pairwise hdis (by intro x y hxy m l m' l' h1 h2; exact (hxy _ _ _ _ h2 h1).symm)
  have hasc : s.Pairwise (fun a b => ∀ m l m' l', a.Whole m l → b.Whole m' l' → m < l') := by
    refine (hdis'.and hsort).imp ?_
    intro a b hab m l m' l' h1 h2
    have := hab.1 m l m' l' h1 h2
    have := hab.2 m l m' l' h1 h2
    have := h1.2.2
    have := h2.2.2
    omega
  obtain ⟨l1, l2⟩ := stacked_positions f top s 0
    (fun b hb' => by
      obtain ⟨m, l, hw⟩ := hb b (hp.mem_iff.mp hb')
      refine ⟨m, l, hw, ?_⟩
      have := hlen b (hp.mem_iff.mp hb') m l hw
      omega) hasc
    (fun p => by rw [← hcov p]; simp only [hp.mem_iff])
  refine ⟨_, hB, by rw [l1]; omega, ?_⟩
  intro b hb' m l hw
  have := (l2 b (hp.mem_iff.mpr hb') m l hw).2
  simpa using this

/-- **C32** (returning) `getMergedTree` returns when the bounds of the signals are constants after simplification. -/
theorem C32_merged_total (S : MergeEnv) (bs : List Bind) (hb : ∀ b ∈ bs, ∃ m l, b.Whole m l)
    (ht : ∀ b ∈ bs, ∃ t m l m' l', S.terms.get? b.dest = some t ∧ S.opt t.msb = .ok m ∧ m.intAttr = .ok m' ∧
      S.opt t.lsb = .ok l ∧ l.intAttr = .ok l') : ∃ t, S.mergedTree bs = .ok t := by
  have hk : ∀ b ∈ bs, ∃ k, S.bindKey b = .ok k := by
    intro b hb'
    obtain ⟨m, l, ⟨⟨_, _, _, e1⟩, ⟨_, _, _, e2⟩, _⟩, e3, _⟩ := hb b hb'
    obtain ⟨t, m, l, m', l', h1, h2, h3, h4, h5⟩ := ht b hb'
    unfold MergeEnv.bindKey
    simp only [e2, reduceCtorEq, if_false, Bind.constPtr, e3, h1, h2, h3, h4, h5, ok_bind]
    exact ⟨_, rfl⟩
  have hks : ∃ ks, bs.mapM S.bindKey = .ok ks := by
    clear hb ht
    induction bs with
    | nil => exact ⟨[], rfl⟩
    | cons b bs ih =>
      obtain ⟨k, h⟩ := hk b (by simp)
      obtain ⟨ks, hks⟩ := ih (fun x hx => hk x (by simp [hx]))
      exact ⟨k :: ks, by rw [List.mapM_cons, h, ok_bind, hks, ok_bind]; rfl⟩
  obtain ⟨ks, hks⟩ := hks
  have hsb : S.sortBinds bs = .ok ((sortOn (fun p => p.1) (ks.zip bs)).map (·.2)) := by
    simp only [MergeEnv.sortBinds, hks, ok_bind]
  have hall := (sortBinds_whole hb hsb).1
  have loop : ∀ (s : List Bind) (lm : Int) (out : List DF), (∀ b ∈ s, ∃ m l, b.Whole m l) → ∃ r, mergedLoop s lm (-1) out = .ok r := by
    intro s
    induction s with
    | nil => intro lm out _; exact ⟨out, rfl⟩
    | cons b s ih =>
      intro lm out hs
      obtain ⟨m, l, ⟨⟨_, _, _, e1⟩, ⟨_, _, _, e2⟩, _⟩, e3, _⟩ := hs b (by simp)
      simp only [mergedLoop, e1, e2, e3, reduceCtorEq, if_false, DF.intAttr, DF.valueAttr, PyVal.toInt, ok_bind, Bind.constPtr,
        Option.getD_none, ne_eq, not_true_eq_false]
      exact ih _ _ (fun x hx => hs x (by simp [hx]))
  obtain ⟨r, hr⟩ := loop _ (-1) [] (fun b hb' => hb b (hall.mem_iff.mp hb'))
  exact ⟨.concat r.reverse, by simp only [MergeEnv.mergedTree, hsb, ok_bind, hr]⟩

/-- **C32** is false of the code for *every* gap: of two pieces with unassigned bits between them, the upper one ends up
directly above the lower one, so at the wrong position. -/
theorem C32_gap_false (S : MergeEnv) (a b : Bind) (m l m' l' : Int) (ha : a.Whole m l) (hb : b.Whole m' l') (hgap : m + 1 < l')
    (t : DF) (h : S.mergedTree [b, a] = .ok t ∨ S.mergedTree [a, b] = .ok t) (ρ : Env) (x y : List Bit)
    (hx : bits ρ a.tree = some x) (hy : bits ρ b.tree = some y) : bits ρ t = some (x ++ y) := by
  classical
  have hab : a ≠ b := by
    rintro rfl
    obtain ⟨rfl, rfl⟩ := ha.1.inj hb.1
    have := ha.2.2; omega
  have key : ∀ bs : List Bind, bs.Perm [a, b] → S.mergedTree bs = .ok t → bits ρ t = some (x ++ y) := by
    intro bs hperm h
    have hw : ∀ c ∈ bs, ∃ m l, c.Whole m l := by
      intro c hc
      have := hperm.mem_iff.mp hc
      simp at this
      rcases this with rfl | rfl
      · exact ⟨_, _, ha⟩
      · exact ⟨_, _, hb⟩
    obtain ⟨s, hp, hsort, hB⟩ := C32_pieces_stacked S bs t hw h ρ (fun c => if c = a then x else y) (by
      intro c hc
      have := hperm.mem_iff.mp hc
      simp at this
      rcases this with rfl | rfl
      · simp [hx]
      · simp [hy, hab.symm])
    have hp2 := hp.trans hperm
    have hs : s = [a, b] := by
      have hl := hp2.length_eq
      match s, hl with
      | [u, v], _ =>
        rw [List.pairwise_cons] at hsort
        have hu : u ∈ [a, b] := hp2.mem_iff.mp (by simp)
        have hv : v ∈ [a, b] := hp2.mem_iff.mp (by simp)
        have hbm : b ∈ [u, v] := hp2.mem_iff.mpr (by simp)
        have ham : a ∈ [u, v] := hp2.mem_iff.mpr (by simp)
        simp at hu hv hbm ham
        rcases hu with rfl | rfl
        · rcases hv with rfl | rfl
          · simp [hab.symm] at hbm
          · rfl
        · rcases hv with rfl | rfl
          · have := hsort.1 v (by simp) _ _ _ _ hb ha
            have := ha.2.2
            omega
          · simp [hab] at ham
    rw [hB, hs]
    simp [hab.symm]
  rcases h with h | h
  · exact key _ (List.Perm.swap ..) h
  · exact key _ (List.Perm.refl _) h

/-- **C32** is false of the code for array elements: whatever is assigned to pieces of an element with a constant
(non-negative) index, the tree is the empty concatenation. -/
theorem C32_element_false (S : MergeEnv) (bs : List Bind) (t : DF) (h : S.mergedTree bs = .ok t)
    (hb : ∀ b ∈ bs, ∃ v w x y, b.ptr = .ev (.int v) w x y ∧ 0 ≤ v) : t = .concat [] := by
  simp only [MergeEnv.mergedTree, bind_ok, ok_inj] at h
  obtain ⟨s, hs, out, ho, rfl⟩ := h
  have hmem : ∀ b ∈ s, b ∈ bs := by
    unfold MergeEnv.sortBinds at hs
    rw [bind_ok] at hs
    obtain ⟨ks, hk, hs⟩ := hs
    rw [ok_inj] at hs; subst hs
    intro b hb'
    obtain ⟨p, hp, rfl⟩ := List.mem_map.mp hb'
    have := List.of_mem_zip (mem_sortOn.mp hp)
    exact this.2
  have loop : ∀ (s : List Bind) (lm : Int) (out r : List DF), (∀ b ∈ s, ∃ v w x y, b.ptr = .ev (.int v) w x y ∧ 0 ≤ v) →
      mergedLoop s lm (-1) out = .ok r → r = out := by
    intro s
    induction s with
    | nil => intro lm out r _ h; simp only [mergedLoop, ok_inj] at h; exact h.symm
    | cons b s ih =>
      intro lm out r hs h
      obtain ⟨v, w, x, y, e, hv⟩ := hs b (by simp)
      simp only [mergedLoop, e, Bind.constPtr, PyVal.toInt, ok_bind, bind_ok, Option.getD_some] at h
      obtain ⟨_, _, h⟩ := h
      rw [if_pos (by omega)] at h
      exact ih _ _ _ (fun x hx => hs x (by simp [hx])) h
  rw [loop s (-1) [] out (fun b hb' => hb b (hmem b hb')) ho]
  rfl

/-! ### C49: merging the assignments of each range -/

/-- The assignments of one range merged in order: each one merged over the result so far, and simplified. -/
def mergeInto (S : MergeEnv) (t : DF) (ts : List DF) : Py DF := ts.foldlM (fun t u => do let r ← mergeTree S.opt t u; S.opt r) t

theorem sameRange_whole {a b : Bind} {m l m' l' : Int} (ha : a.Whole m l) (hb : b.Whole m' l') :
    sameRange a b = .ok (decide (m = m' ∧ l = l')) := by
  obtain ⟨⟨⟨_, _, _, e1⟩, ⟨_, _, _, e2⟩, _⟩, e3, _⟩ := ha
  obtain ⟨⟨⟨_, _, _, e1'⟩, ⟨_, _, _, e2'⟩, _⟩, e3', _⟩ := hb
  unfold sameRange
  simp only [e3, sameRange.go, e2, e1', e2', reduceCtorEq, or_self, if_false, DF.valueAttr, ok_bind, e1, PyVal.int.injEq]
  by_cases h1 : l = l'
  · by_cases h2 : m = m' <;> simp [h1, h2]
  · simp [h1]

/-- The loop of `mergeBindlist` on a sorted list of assignments with equal or disjoint ranges. -/
theorem mergeLoop_spec {S : MergeEnv} : ∀ (s acc : List Bind) (p : Bind) (m l : Int) (rs : List Bind), p.Whole m l →
    (∀ b ∈ s, ∃ m' l', b.Whole m' l') →
    s.Pairwise (fun a b => ∀ m l m' l', a.Whole m l → b.Whole m' l' → l ≤ l') →
    (∀ b ∈ s, ∀ m' l', b.Whole m' l' → (m' = m ∧ l' = l) ∨ m < l') → Separated s →
    S.mergeLoop acc (some p) s = .ok rs →
    ∃ p' rest, rs = acc ++ p' :: rest ∧ p'.Whole m l ∧
      mergeInto S p.tree ((s.filter (Bind.isAt m l)).map (·.tree)) = .ok p'.tree ∧
      (∀ r ∈ rest, ∃ m' l', r.Whole m' l' ∧ m < l' ∧ ∃ b bs, s.filter (Bind.isAt m' l') = b :: bs ∧
        mergeInto S b.tree (bs.map (·.tree)) = .ok r.tree) ∧
      (∀ b ∈ s, ∀ m' l', b.Whole m' l' → (m' = m ∧ l' = l) ∨ ∃ r ∈ rest, r.Whole m' l') ∧
      rest.Pairwise (fun a b => ∀ m l m' l', a.Whole m l → b.Whole m' l' → m < l') := by
  intro s
  induction s with
  | nil =>
    intro acc p m l rs hp _ _ _ _ h
    simp only [MergeEnv.mergeLoop, ok_inj] at h
    exact ⟨p, [], by simpa using h.symm, hp, rfl, by simp, by simp, by simp⟩
  | cons b s ih =>
    intro acc p m l rs hp hs hsort hgt hsep h
    obtain ⟨m', l', hw⟩ := hs b (by simp)
    rw [List.pairwise_cons] at hsort
    have hsep' : Separated s := fun x hx y hy => hsep x (by simp [hx]) y (by simp [hy])
    simp only [MergeEnv.mergeLoop, sameRange_whole hp hw, ok_bind, decide_eq_true_eq] at h
    by_cases he : m = m' ∧ l = l'
    · obtain ⟨rfl, rfl⟩ := he
      rw [if_pos ⟨rfl, rfl⟩] at h
      simp only [bind_ok] at h
      obtain ⟨t, ht, u, hu, h⟩ := h
      have hbw : Bind.Whole { b with tree := u } m l := hw
      obtain ⟨p', rest, h1, h2, h4, h5, h6, h7⟩ := ih acc _ m l rs hbw (fun x hx => hs x (by simp [hx])) hsort.2
        (fun x hx => hgt x (by simp [hx])) hsep' h
      have hat : Bind.isAt m l b = true := hw.1.isAt_iff.mpr ⟨rfl, rfl⟩
      refine ⟨p', rest, h1, h2, ?_, ?_, ?_, h7⟩
      · rw [List.filter_cons, if_pos hat, List.map_cons, mergeInto, List.foldlM_cons, ht, ok_bind, hu, ok_bind]
        exact h4
      · intro r hr
        obtain ⟨m1, l1, hr1, hr2, b1, bs1, hr3, hr4⟩ := h5 r hr
        refine ⟨m1, l1, hr1, hr2, b1, bs1, ?_, hr4⟩
        rw [List.filter_cons, if_neg, hr3]
        intro hat'
        obtain ⟨rfl, rfl⟩ := hw.1.isAt_iff.mp hat'
        have := hw.2.2; omega
      · intro x hx m1 l1 hx1
        rcases List.mem_cons.mp hx with e | hx'
        · rw [e] at hx1
          obtain ⟨rfl, rfl⟩ := hw.1.inj hx1.1
          exact .inl ⟨rfl, rfl⟩
        · exact h6 x hx' m1 l1 hx1
    · rw [if_neg he] at h
      have hml : m < l' := by
        rcases hgt b (by simp) m' l' hw with h' | h'
        · exact absurd ⟨h'.1.symm, h'.2.symm⟩ he
        · exact h'
      have hafter : ∀ x ∈ s, ∀ m1 l1, x.Whole m1 l1 → (m1 = m' ∧ l1 = l') ∨ m' < l1 := by
        intro x hx m1 l1 hx1
        have hle := hsort.1 x hx m' l' m1 l1 hw hx1
        rcases hsep b (by simp) x (by simp [hx]) m' l' m1 l1 hw.1 hx1.1 with h' | h' | h'
        · exact .inl ⟨h'.1.symm, h'.2.symm⟩
        · exact .inr h'
        · have := hx1.2.2; omega
      obtain ⟨p', rest, h1, h2, h4, h5, h6, h7⟩ := ih (acc ++ [p]) b m' l' rs hw (fun x hx => hs x (by simp [hx])) hsort.2
        hafter hsep' h
      have hnat : ∀ x ∈ b :: s, Bind.isAt m l x = false := by
        intro x hx
        obtain ⟨m1, l1, hx1⟩ := hs x hx
        rw [Bool.eq_false_iff]
        intro hat
        obtain ⟨rfl, rfl⟩ := hx1.1.isAt_iff.mp hat
        have := hx1.2.2
        rcases List.mem_cons.mp hx with e | hx'
        · rw [e] at hx1
          exact he (hx1.1.inj hw.1)
        · have := hsort.1 x hx' m' l' _ _ hw hx1
          omega
      have hfil : (b :: s).filter (Bind.isAt m l) = [] := by
        rw [List.filter_eq_nil_iff]
        intro x hx
        rw [hnat x hx]; simp
      refine ⟨p, p' :: rest, by rw [h1]; simp, hp, ?_, ?_, ?_, ?_⟩
      · rw [hfil]; rfl
      · intro r hr
        rcases List.mem_cons.mp hr with e | hr'
        · rw [e]
          refine ⟨m', l', h2, hml, b, s.filter (Bind.isAt m' l'), ?_, h4⟩
          rw [List.filter_cons, if_pos (hw.1.isAt_iff.mpr ⟨rfl, rfl⟩)]
        · obtain ⟨m1, l1, hr1, hr2, b1, bs1, hr3, hr4⟩ := h5 r hr'
          refine ⟨m1, l1, hr1, by have := hw.2.2; omega, b1, bs1, ?_, hr4⟩
          rw [List.filter_cons, if_neg, hr3]
          intro hat'
          obtain ⟨rfl, rfl⟩ := hw.1.isAt_iff.mp hat'
          have := hw.2.2; omega
      · intro x hx m1 l1 hx1
        rcases List.mem_cons.mp hx with e | hx'
        · rw [e] at hx1
          obtain ⟨rfl, rfl⟩ := hw.1.inj hx1.1
          exact .inr ⟨p', by simp, h2⟩
        · rcases h6 x hx' m1 l1 hx1 with ⟨rfl, rfl⟩ | ⟨r, hr, hr1⟩
          · exact .inr ⟨p', by simp, h2⟩
          · exact .inr ⟨r, by simp [hr], hr1⟩
      · rw [List.pairwise_cons]
        refine ⟨?_, h7⟩
        intro r hr m1 l1 m2 l2 w1 w2
        obtain ⟨m3, l3, hr1, hr2, _⟩ := h5 r hr
        obtain ⟨rfl, rfl⟩ := w1.1.inj h2.1
        obtain ⟨rfl, rfl⟩ := w2.1.inj hr1.1
        exact hr2

/-- **C49** `mergeBindlist` of assignments whose ranges are equal or disjoint gives exactly one assignment per range, the
ranges in ascending order, each one with the assignments of that range merged in their order. -/
theorem C49_one_per_range (S : MergeEnv) (bs rs : List Bind) (hb : ∀ b ∈ bs, ∃ m l, b.Whole m l) (hsep : Separated bs)
    (h : S.mergeBindlist bs = .ok rs) :
    (∀ m l, (∃ r ∈ rs, r.Whole m l) ↔ ∃ b ∈ bs, b.Whole m l) ∧
    rs.Pairwise (fun a b => ∀ m l m' l', a.Whole m l → b.Whole m' l' → m < l') ∧
    ∀ r ∈ rs, ∃ m l, r.Whole m l ∧ ∃ b others, bs.filter (Bind.isAt m l) = b :: others ∧
      mergeInto S b.tree (others.map (·.tree)) = .ok r.tree := by
  simp only [MergeEnv.mergeBindlist, bind_ok] at h
  obtain ⟨s, hs, h⟩ := h
  obtain ⟨hp, hsort, hfil⟩ := sortBinds_whole hb hs
  cases s with
  | nil =>
    simp only [MergeEnv.mergeLoop, ok_inj] at h
    have : bs = [] := by simpa using hp.symm.eq_nil
    subst h; subst this
    simp
  | cons p s =>
    obtain ⟨m, l, hw⟩ := hb p (hp.mem_iff.mp (by simp))
    rw [List.pairwise_cons] at hsort
    have hsep' : Separated (p :: s) := fun x hx y hy => hsep x (hp.mem_iff.mp hx) y (hp.mem_iff.mp hy)
    have hbs : ∀ b ∈ s, ∃ m l, b.Whole m l := fun b hb' => hb b (hp.mem_iff.mp (by simp [hb']))
    have hafter : ∀ x ∈ s, ∀ m1 l1, x.Whole m1 l1 → (m1 = m ∧ l1 = l) ∨ m < l1 := by
      intro x hx m1 l1 hx1
      have hle := hsort.1 x hx m l m1 l1 hw hx1
      rcases hsep' p (by simp) x (by simp [hx]) m l m1 l1 hw.1 hx1.1 with h' | h' | h'
      · exact .inl ⟨h'.1.symm, h'.2.symm⟩
      · exact .inr h'
      · have := hx1.2.2; omega
    simp only [MergeEnv.mergeLoop] at h
    obtain ⟨p', rest, h1, h2, h4, h5, h6, h7⟩ := mergeLoop_spec s [] p m l rs hw hbs hsort.2 hafter
      (fun x hx y hy => hsep' x (by simp [hx]) y (by simp [hy])) h
    rw [List.nil_append] at h1
    have hp1 : ∀ m' l', (p :: s).filter (Bind.isAt m' l') = bs.filter (Bind.isAt m' l') := hfil
    refine ⟨?_, ?_, ?_⟩
    · intro m' l'
      constructor
      · rintro ⟨r, hr, hr1⟩
        rw [h1] at hr
        rcases List.mem_cons.mp hr with e | hr'
        · rw [e] at hr1
          obtain ⟨rfl, rfl⟩ := hr1.1.inj h2.1
          exact ⟨p, hp.mem_iff.mp (by simp), hw⟩
        · obtain ⟨m1, l1, q1, _, b1, bs1, q2, _⟩ := h5 r hr'
          obtain ⟨rfl, rfl⟩ := hr1.1.inj q1.1
          have hm : b1 ∈ s.filter (Bind.isAt m' l') := by rw [q2]; simp
          rw [List.mem_filter] at hm
          obtain ⟨m2, l2, w2⟩ := hbs b1 hm.1
          obtain ⟨rfl, rfl⟩ := w2.1.isAt_iff.mp hm.2
          exact ⟨b1, hp.mem_iff.mp (by simp [hm.1]), w2⟩
      · rintro ⟨b, hb', hb1⟩
        have := hp.mem_iff.mpr hb'
        rcases List.mem_cons.mp this with e | hb''
        · rw [e] at hb1
          obtain ⟨rfl, rfl⟩ := hb1.1.inj hw.1
          exact ⟨p', by simp [h1], h2⟩
        · rcases h6 b hb'' m' l' hb1 with ⟨rfl, rfl⟩ | ⟨r, hr, hr1⟩
          · exact ⟨p', by simp [h1], h2⟩
          · exact ⟨r, by simp [h1, hr], hr1⟩
    · rw [h1, List.pairwise_cons]
      refine ⟨?_, h7⟩
      intro r hr m1 l1 m2 l2 w1 w2
      obtain ⟨m3, l3, q1, q2, _⟩ := h5 r hr
      obtain ⟨rfl, rfl⟩ := w1.1.inj h2.1
      obtain ⟨rfl, rfl⟩ := w2.1.inj q1.1
      exact q2
    · intro r hr
      rw [h1] at hr
      rcases List.mem_cons.mp hr with e | hr'
      · rw [e]
        refine ⟨m, l, h2, p, s.filter (Bind.isAt m l), ?_, h4⟩
        rw [← hp1, List.filter_cons, if_pos (hw.1.isAt_iff.mpr ⟨rfl, rfl⟩)]
      · obtain ⟨m1, l1, q1, q0, b1, bs1, q2, q3⟩ := h5 r hr'
        refine ⟨m1, l1, q1, b1, bs1, ?_, q3⟩
        rw [← hp1, List.filter_cons, if_neg, q2]
        intro hat'
        obtain ⟨rfl, rfl⟩ := hw.1.isAt_iff.mp hat'
        have := hw.2.2; omega

/-- The environment of the examples: `d` and `s` are eight bits wide. -/
def c32S : MergeEnv := mergeEnvOf ⟨[(c23s, ⟨c23s, [.wire], .intc ['7'], .intc ['0'], none⟩),
  (c23d, ⟨c23d, [.wire], .intc ['7'], .intc ['0'], none⟩)], [], 32, fun _ => none⟩ 5 2 [] []
/-- `d[m:l] = t`. -/
def c32b (m l : Int) (t : DF) : Bind := ⟨t, c23d, .evi m (some 32), .evi l (some 32), .none, [], none⟩
theorem c32b_whole {m l : Int} {t : DF} (h : l ≤ m) : (c32b m l t).Whole m l := ⟨⟨⟨_, _, _, rfl⟩, ⟨_, _, _, rfl⟩, .inl rfl⟩, rfl, h⟩

/-- Non-vacuity: `d[7:4] = 4'd5`, `d[3:0] = 4'd9`; with a gap, `d[7:6] = 2'd1`, `d[3:0] = 4'd9`; and the same range twice. -/
example : c32S.mergedTree [c32b 7 4 (.evi 5 (some 4)), c32b 3 0 (.evi 9 (some 4))] = .ok (.concat [.evi 5 (some 4), .evi 9 (some 4)]) := by
  decide +kernel
example (p : Int) : (∃ b ∈ [c32b 7 4 (.evi 5 (some 4)), c32b 3 0 (.evi 9 (some 4))], ∃ m l, b.Whole m l ∧ l ≤ p ∧ p ≤ m) ↔
    0 ≤ p ∧ p ≤ 7 := by
  constructor
  · rintro ⟨b, hb, m, l, hw, h1, h2⟩
    simp only [List.mem_cons, List.not_mem_nil, or_false] at hb
    rcases hb with rfl | rfl
    · obtain ⟨rfl, rfl⟩ := hw.1.inj (c32b_whole (by decide)).1; omega
    · obtain ⟨rfl, rfl⟩ := hw.1.inj (c32b_whole (by decide)).1; omega
  · intro hp
    by_cases h : p ≤ 3
    · exact ⟨c32b 3 0 (.evi 9 (some 4)), by simp, 3, 0, c32b_whole (by decide), by omega, by omega⟩
    · exact ⟨c32b 7 4 (.evi 5 (some 4)), by simp, 7, 4, c32b_whole (by decide), by omega, by omega⟩
example : c32S.mergedTree [c32b 7 6 (.evi 1 (some 2)), c32b 3 0 (.evi 9 (some 4))] =
    .ok (.concat [.evi 1 (some 2), .undef (some (-4)), .evi 9 (some 4)]) := by decide +kernel
example : c32S.mergeBindlist [c32b 7 4 (.evi 5 (some 4)), c32b 3 0 (.evi 9 (some 4)), c32b 7 4 (.evi 6 (some 4))] =
    .ok [c32b 3 0 (.evi 9 (some 4)), c32b 7 4 (.evi 6 (some 4))] := by decide +kernel
example : Separated [c32b 7 4 (.evi 5 (some 4)), c32b 3 0 (.evi 9 (some 4)), c32b 7 4 (.evi 6 (some 4))] := by
  intro x hx y hy k j k' j' h1 h2
  simp only [List.mem_cons, List.not_mem_nil, or_false] at hx hy
  rcases hx with rfl | rfl | rfl <;> rcases hy with rfl | rfl | rfl <;>
    (obtain ⟨rfl, rfl⟩ := h1.inj (c32b_whole (by decide)).1; obtain ⟨rfl, rfl⟩ := h2.inj (c32b_whole (by decide)).1; decide)

end Pyv
