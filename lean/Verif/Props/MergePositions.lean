import Verif.Props.MergeSplit
/-
  C31: the positions at which assignments are split.
-/
namespace Pyv

/-- An assignment of bits `m` to `l` of a signal (not of an array element). -/
def Bind.Whole (b : Bind) (m l : Int) : Prop := b.Range m l ∧ b.ptr = .none ∧ l ≤ m

/-- The ranges of the listed assignments are pairwise equal or disjoint. -/
def Separated (bs : List Bind) : Prop :=
  ∀ x ∈ bs, ∀ y ∈ bs, ∀ k j k' j', x.Range k j → y.Range k' j' → (k = k' ∧ j = j') ∨ k < j' ∨ k' < j

/-! ### Pieces -/

theorem tiles_facts {m : Int} : ∀ {bs : List Bind} {l : Int}, Tiles m l bs →
    (∀ x ∈ bs, ∀ k j, x.Range k j → l ≤ j ∧ j ≤ k ∧ k ≤ m ∧ (k = m ∨ ∃ y ∈ bs, ∃ k', y.Range k' (k + 1))) ∧
    (∀ x ∈ bs, ∀ y ∈ bs, ∀ k j k' j', x.Range k j → y.Range k' j' → j < j' → k < j') ∧
    (∀ x ∈ bs, ∃ k j, x.Range k j) := by
  intro bs
  induction bs with
  | nil => intro l h; simp [Tiles] at h
  | cons b bs ih =>
    intro l h
    cases bs with
    | nil =>
      obtain ⟨hb, hle⟩ := h
      refine ⟨?_, ?_, ?_⟩
      · intro x hx k j hr
        simp at hx; subst hx
        obtain ⟨rfl, rfl⟩ := hr.inj hb
        exact ⟨by omega, by omega, by omega, .inl rfl⟩
      · intro x hx y hy k j k' j' hr hr' hlt
        simp at hx hy; subst hx; subst hy
        obtain ⟨rfl, rfl⟩ := hr.inj hr'
        omega
      · intro x hx
        simp at hx; subst hx; exact ⟨_, _, hb⟩
    | cons c cs =>
      obtain ⟨k0, h1, h2, h3, h4⟩ := h
      obtain ⟨i1, i2, i3⟩ := ih h4
      have hc : ∃ k', c.Range k' (k0 + 1) := by
        cases cs with
        | nil => exact ⟨m, h4.1⟩
        | cons d ds => obtain ⟨k, _, _, hr, _⟩ := h4; exact ⟨k, hr⟩
      refine ⟨?_, ?_, ?_⟩
      · intro x hx k j hr
        rcases List.mem_cons.mp hx with rfl | hx
        · obtain ⟨rfl, rfl⟩ := hr.inj h3
          obtain ⟨k', hk'⟩ := hc
          exact ⟨by omega, by omega, by omega, .inr ⟨c, by simp, k', hk'⟩⟩
        · obtain ⟨a, b, d, e⟩ := i1 x hx k j hr
          refine ⟨by omega, b, d, ?_⟩
          rcases e with e | ⟨y, hy, k', hk'⟩
          · exact .inl e
          · exact .inr ⟨y, List.mem_cons_of_mem _ hy, k', hk'⟩
      · intro x hx y hy k j k' j' hr hr' hlt
        rcases List.mem_cons.mp hx with ex | hx1
        · rw [ex] at hr
          obtain ⟨rfl, rfl⟩ := hr.inj h3
          rcases List.mem_cons.mp hy with ey | hy1
          · rw [ey] at hr'
            obtain ⟨rfl, rfl⟩ := hr'.inj h3; omega
          · have := (i1 y hy1 k' j' hr').1; omega
        · rcases List.mem_cons.mp hy with ey | hy1
          · rw [ey] at hr'
            obtain ⟨rfl, rfl⟩ := hr'.inj h3
            have := (i1 x hx1 k j hr).1; omega
          · exact i2 x hx1 y hy1 k j k' j' hr hr' hlt
      · intro x hx
        rcases List.mem_cons.mp hx with rfl | hx
        · exact ⟨_, _, h3⟩
        · exact i3 x hx

/-- What is known about the pieces of one assignment. -/
theorem piece_facts {S : MergeEnv} (hS : ConstStable S) {ps : List Int} (hps : ps.Pairwise (· ≤ ·)) {b : Bind} {m l : Int}
    (hb : b.Range m l) (hle : l ≤ m) {bs : List Bind} (h : S.splitBindPositions b ps = .ok bs) :
    ∀ x ∈ bs, ∀ k j, x.Range k j → l ≤ j ∧ j ≤ k ∧ k ≤ m ∧ (j = l ∨ j ∈ ps) ∧ (k = m ∨ k + 1 ∈ ps) ∧
      ∀ p ∈ ps, ¬ (j < p ∧ p ≤ k) := by
  obtain ⟨t1, t2, t3, _⟩ := C30_pieces_tile S hS ps hps b m l hb hle bs h
  obtain ⟨f1, f2, _⟩ := tiles_facts t1
  intro x hx k j hr
  obtain ⟨a1, a2, a3, a4⟩ := f1 x hx k j hr
  refine ⟨a1, a2, a3, t3 x hx k j hr, ?_, ?_⟩
  · rcases a4 with e | ⟨y, hy, k', hk'⟩
    · exact .inl e
    · rcases t3 y hy k' (k + 1) hk' with e | e
      · omega
      · exact .inr e
  · rintro p hp ⟨h1, h2⟩
    obtain ⟨y, hy, k', hk'⟩ := t2 p hp (by omega) (by omega)
    have := f2 x hx y hy k j k' p hr hk' h1
    omega

theorem mem_splitBindlist {S : MergeEnv} {ps : List Int} : ∀ {bs xs : List Bind}, S.splitBindlist ps bs = .ok xs →
    ∀ x, x ∈ xs ↔ ∃ b ∈ bs, ∃ ys, S.splitBindPositions b ps = .ok ys ∧ x ∈ ys := by
  intro bs
  induction bs with
  | nil => intro xs h x; simp only [MergeEnv.splitBindlist, ok_inj] at h; subst h; simp
  | cons b bs ih =>
    intro xs h x
    simp only [MergeEnv.splitBindlist, bind_ok, ok_inj] at h
    obtain ⟨y, hy, z, hz, rfl⟩ := h
    rw [List.mem_append, ih hz]
    constructor
    · rintro (h | ⟨c, hc, ys, e, hx⟩)
      · exact ⟨b, by simp, y, hy, h⟩
      · exact ⟨c, by simp [hc], ys, e, hx⟩
    · rintro ⟨c, hc, ys, e, hx⟩
      rcases List.mem_cons.mp hc with rfl | hc
      · rw [hy, ok_inj] at e; subst e; exact .inl hx
      · exact .inr ⟨c, hc, ys, e, hx⟩

/-- The positions include every end of a listed range that lies strictly inside another one. -/
def CoversEnds (ps : List Int) (bs : List Bind) : Prop :=
  ∀ a ∈ bs, ∀ b ∈ bs, ∀ m l m' l', a.Range m l → b.Range m' l' →
    (l' < l → l ≤ m' → l ∈ ps) ∧ (l' < m + 1 → m + 1 ≤ m' → m + 1 ∈ ps)

theorem separated_of_covers {S : MergeEnv} (hS : ConstStable S) {ps : List Int} (hps : ps.Pairwise (· ≤ ·)) {bs xs : List Bind}
    (hb : ∀ b ∈ bs, ∃ m l, b.Whole m l) (hc : CoversEnds ps bs) (h : S.splitBindlist ps bs = .ok xs) : Separated xs := by
  have key : ∀ x ∈ xs, ∀ y ∈ xs, ∀ k j k' j', x.Range k j → y.Range k' j' → j ≤ k' → j' ≤ k → ¬ j < j' ∧ ¬ k < k' := by
    intro x hx y hy k j k' j' hr hr' o1 o2
    obtain ⟨a, ha, as, ea, hxa⟩ := (mem_splitBindlist h x).mp hx
    obtain ⟨b, hb', bs', eb, hyb⟩ := (mem_splitBindlist h y).mp hy
    obtain ⟨m, l, hra, _, hla⟩ := hb a ha
    obtain ⟨m', l', hrb, _, hlb⟩ := hb b hb'
    obtain ⟨f1, f2, f3, f4, f5, f6⟩ := piece_facts hS hps hra hla ea x hxa k j hr
    obtain ⟨g1, g2, g3, g4, g5, g6⟩ := piece_facts hS hps hrb hlb eb y hyb k' j' hr'
    constructor
    · intro hlt
      rcases g4 with rfl | hm
      · exact f6 _ ((hc b hb' a ha m' j' m l hrb hra).1 (by omega) (by omega)) ⟨hlt, o2⟩
      · exact f6 _ hm ⟨hlt, o2⟩
    · intro hlt
      rcases f5 with rfl | hm
      · exact g6 _ ((hc a ha b hb' k l m' l' hra hrb).2 (by omega) (by omega)) ⟨by omega, by omega⟩
      · exact g6 _ hm ⟨by omega, by omega⟩
  intro x hx y hy k j k' j' hr hr'
  by_cases o1 : j ≤ k'
  · by_cases o2 : j' ≤ k
    · have a := key x hx y hy k j k' j' hr hr' o1 o2
      have b := key y hy x hx k' j' k j hr' hr o2 o1
      exact .inl ⟨by omega, by omega⟩
    · exact .inr (.inl (by omega))
  · exact .inr (.inr (by omega))

/-! ### Positions -/

theorem splitRound_whole {S : MergeEnv} (hS : ConstStable S) {b : Bind} {m l : Int} (hb : b.Whole m l) (st : List Int × List Rng) :
    S.splitRound st b = .ok (setUnion st.1 ((matchedRange st.2 m l none).flatMap (fun r => [r.2.1, r.1 + 1])).eraseDups,
      st.2 ++ (matchedRange st.2 m l none ++ unmatchedRange (matchedRange st.2 m l none) m l none)) := by
  obtain ⟨⟨⟨w1, x1, y1, e1⟩, ⟨w2, x2, y2, e2⟩, _⟩, e3, _⟩ := hb
  simp only [MergeEnv.splitRound, e1, e2, e3, hS.1, hS.2, ok_bind, MergeEnv.constRange, reduceCtorEq, and_self, if_false,
    DF.isEv, Bool.and_self, if_true, DF.intAttr, DF.valueAttr, PyVal.toInt, splitStep, positionsFromRange, ne_eq,
    not_true_eq_false, false_and]

theorem splitFold {S : MergeEnv} (hS : ConstStable S) : ∀ (bs : List Bind) (st : List Int × List Rng),
    (∀ b ∈ bs, ∃ m l, b.Whole m l) →
    ∃ st', bs.foldlM S.splitRound st = .ok st' ∧ (∀ p ∈ st.1, p ∈ st'.1) ∧ (∀ r ∈ st.2, r ∈ st'.2) ∧
      ∀ b ∈ bs, ∀ m l, b.Whole m l → (∃ r ∈ st.2, r.2.1 ≤ l ∧ m ≤ r.1) → l ∈ st'.1 ∧ m + 1 ∈ st'.1 := by
  intro bs
  induction bs with
  | nil => intro st _; exact ⟨st, rfl, fun _ h => h, fun _ h => h, by simp⟩
  | cons b bs ih =>
    intro st hb
    obtain ⟨m, l, hw⟩ := hb b (by simp)
    obtain ⟨st', h1, h2, h3, h4⟩ := ih (setUnion st.1 ((matchedRange st.2 m l none).flatMap (fun r => [r.2.1, r.1 + 1])).eraseDups,
      st.2 ++ (matchedRange st.2 m l none ++ unmatchedRange (matchedRange st.2 m l none) m l none))
      (fun c hc => hb c (by simp [hc]))
    refine ⟨st', ?_, ?_, ?_, ?_⟩
    · rw [List.foldlM_cons, splitRound_whole hS hw, ok_bind]; exact h1
    · intro p hp; exact h2 p (mem_setUnion.mpr (.inl hp))
    · intro r hr; exact h3 r (by simp [hr])
    · intro c hc m' l' hw' hin
      rcases List.mem_cons.mp hc with rfl | hc
      · obtain ⟨rfl, rfl⟩ := hw'.1.inj hw.1
        obtain ⟨⟨rm, rl, rp⟩, hr, i1, i2⟩ := hin
        simp only at i1 i2
        have hle : l' ≤ m' := hw'.2.2
        have hm : (m', l', (none : Option Int)) ∈ matchedRange st.2 m' l' none := by
          unfold matchedRange
          rw [List.mem_flatMap]
          refine ⟨_, hr, ?_⟩
          have c1 : rl ≤ l' ∧ l' ≤ rm := ⟨i1, by omega⟩
          have c2 : rl ≤ m' ∧ m' ≤ rm := ⟨by omega, i2⟩
          simp [matchOne, c1, c2]
        constructor
        · refine h2 _ (mem_setUnion.mpr (.inr ?_))
          rw [List.mem_eraseDups, List.mem_flatMap]
          exact ⟨_, hm, by simp⟩
        · refine h2 _ (mem_setUnion.mpr (.inr ?_))
          rw [List.mem_eraseDups, List.mem_flatMap]
          exact ⟨_, hm, by simp⟩
      · obtain ⟨r, hr, i⟩ := hin
        exact h4 c hc m' l' hw' ⟨r, by simp [hr], i⟩

/-- **C31** `splitPositions` returns on every list of assignments to constant ranges of a signal. -/
theorem C31_positions_total (S : MergeEnv) (hS : ConstStable S) (bs : List Bind) (hb : ∀ b ∈ bs, ∃ m l, b.Whole m l) :
    ∃ ps, S.splitPositions bs = .ok ps := by
  obtain ⟨st, h, _⟩ := splitFold hS bs ([], []) hb
  exact ⟨sortOn id st.1, by simp only [MergeEnv.splitPositions, h, ok_bind]⟩

theorem pairwise_sortOn (l : List Int) : (sortOn id l).Pairwise (· ≤ ·) := by
  have ins : ∀ (x : Int) (l : List Int), l.Pairwise (· ≤ ·) → (insertOn id x l).Pairwise (· ≤ ·) := by
    intro x l
    induction l with
    | nil => intro _; simp [insertOn]
    | cons y ys ih =>
      intro h
      rw [List.pairwise_cons] at h
      simp only [insertOn, id]
      split
      · rename_i hxy
        rw [List.pairwise_cons]
        refine ⟨?_, List.pairwise_cons.mpr h⟩
        intro z hz
        rcases List.mem_cons.mp hz with rfl | hz
        · exact hxy
        · have := h.1 z hz; omega
      · rename_i hxy
        rw [List.pairwise_cons]
        refine ⟨?_, ih h.2⟩
        intro z hz
        have : z = x ∨ z ∈ ys := by
          clear ih h
          induction ys with
          | nil => simp [insertOn] at hz; exact .inl hz
          | cons w ws ihw =>
            simp only [insertOn, id] at hz
            split at hz
            · rcases List.mem_cons.mp hz with rfl | hz
              · exact .inl rfl
              · exact .inr hz
            · rcases List.mem_cons.mp hz with rfl | hz
              · exact .inr (by simp)
              · exact (ihw hz).imp id (fun h => by simp [h])
        rcases this with rfl | h'
        · omega
        · exact h.1 z h'
  unfold sortOn
  induction l with
  | nil => simp
  | cons x xs ih => exact ins x _ ih

/-- During a prefix of pairwise disjoint ranges nothing is matched: the assigned ranges are recorded as they are. -/
theorem splitFold_disjoint {S : MergeEnv} (hS : ConstStable S) : ∀ (bs : List Bind) (ps : List Int) (done : List Rng),
    (∀ b ∈ bs, ∃ m l, b.Whole m l) →
    (∀ b ∈ bs, ∀ m l, b.Range m l → ∀ r ∈ done, r.1 < l ∨ m < r.2.1) →
    bs.Pairwise (fun a b => ∀ m l m' l', a.Range m l → b.Range m' l' → m < l' ∨ m' < l) →
    ∃ rs, bs.foldlM S.splitRound (ps, done) = .ok (ps, done ++ rs) ∧ ∀ b ∈ bs, ∀ m l, b.Range m l → (m, l, none) ∈ rs := by
  intro bs
  induction bs with
  | nil => intro ps done _ _ _; exact ⟨[], by simp [pure, Except.pure], by simp⟩
  | cons b bs ih =>
    intro ps done hb hd hp
    rw [List.pairwise_cons] at hp
    obtain ⟨m, l, hw⟩ := hb b (by simp)
    have hnil : matchedRange done m l none = [] := by
      unfold matchedRange
      rw [List.flatMap_eq_nil_iff]
      rintro ⟨rm, rl, rp⟩ hr
      have := hd b (by simp) m l hw.1 _ hr
      have hle := hw.2.2
      simp only at this
      have c1 : ¬ (rl ≤ l ∧ l ≤ rm) := by omega
      have c2 : ¬ (rl ≤ m ∧ m ≤ rm) := by omega
      simp [matchOne, c1, c2]
    obtain ⟨rs, h1, h2⟩ := ih ps (done ++ [(m, l, none)]) (fun c hc => hb c (by simp [hc]))
      (by
        intro c hc m' l' hr r hr'
        rcases List.mem_append.mp hr' with h | h
        · exact hd c (by simp [hc]) m' l' hr r h
        · simp at h; subst h
          have := hp.1 c hc m l m' l' hw.1 hr
          simp only
          omega) hp.2
    refine ⟨(m, l, none) :: rs, ?_, ?_⟩
    · rw [List.foldlM_cons, splitRound_whole hS hw, ok_bind]
      simp only [hnil, List.flatMap_nil, List.eraseDups_nil, List.nil_append]
      have e1 : setUnion ps ([] : List Int) = ps := by simp [setUnion]
      have e2 : unmatchedRange [] m l none = [(m, l, none)] := rfl
      rw [e1, e2, h1]
      simp
    · intro c hc m' l' hr
      rcases List.mem_cons.mp hc with rfl | hc
      · obtain ⟨rfl, rfl⟩ := hr.inj hw.1; simp
      · exact List.mem_cons_of_mem _ (h2 c hc m' l' hr)

/-- **C31 (partial)** Assignments to pairwise disjoint ranges followed by assignments each inside one of these: after
splitting at `splitPositions`, any two pieces are equal or disjoint. -/
theorem C31_nested_separated_partial (S : MergeEnv) (hS : ConstStable S) (roots rest : List Bind) (ps : List Int) (xs : List Bind)
    (hb : ∀ b ∈ roots ++ rest, ∃ m l, b.Whole m l)
    (hd : roots.Pairwise (fun a b => ∀ m l m' l', a.Range m l → b.Range m' l' → m < l' ∨ m' < l))
    (hin : ∀ b ∈ rest, ∀ m l, b.Range m l → ∃ a ∈ roots, ∃ m' l', a.Range m' l' ∧ l' ≤ l ∧ m ≤ m')
    (hps : S.splitPositions (roots ++ rest) = .ok ps) (hxs : S.splitBindlist ps (roots ++ rest) = .ok xs) : Separated xs := by
  obtain ⟨rs, e1, i1⟩ := splitFold_disjoint hS roots [] [] (fun b h => hb b (by simp [h])) (by simp) hd
  obtain ⟨st, e2, _, _, i2⟩ := splitFold hS rest ([], [] ++ rs) (fun b h => hb b (by simp [h]))
  have e : (roots ++ rest).foldlM S.splitRound ([], []) = .ok st := by
    rw [List.foldlM_append, e1, ok_bind, e2]
  simp only [MergeEnv.splitPositions, e, ok_bind, ok_inj] at hps
  subst hps
  refine separated_of_covers hS (pairwise_sortOn _) hb ?_ hxs
  have inner : ∀ b ∈ rest, ∀ m l, b.Range m l → l ∈ st.1 ∧ m + 1 ∈ st.1 := by
    intro b hb' m l hr
    obtain ⟨m0, l0, hw⟩ := hb b (by simp [hb'])
    obtain ⟨rfl, rfl⟩ := hr.inj hw.1
    obtain ⟨a, ha, m', l', hra, h1, h2⟩ := hin b hb' m l hr
    exact i2 b hb' m l hw ⟨(m', l', none), by simpa using i1 a ha m' l' hra, h1, h2⟩
  intro a ha b hb' m l m' l' hra hrb
  simp only [mem_sortOn]
  rcases List.mem_append.mp ha with ha | ha
  · -- a root: not strictly inside anything
    have hle : l ≤ m := by obtain ⟨_, _, hw⟩ := hb a (by simp [ha]); obtain ⟨rfl, rfl⟩ := hra.inj hw.1; exact hw.2.2
    have hle' : l' ≤ m' := by obtain ⟨_, _, hw⟩ := hb b hb'; obtain ⟨rfl, rfl⟩ := hrb.inj hw.1; exact hw.2.2
    have sub : ∀ c ∈ roots, ∀ mc lc, c.Range mc lc → l' < l ∧ l ≤ m' ∨ l' < m + 1 ∧ m + 1 ≤ m' → lc ≤ l' → m' ≤ mc → False := by
      intro c hc mc lc hrc hov h1 h2
      by_cases hac : a = c
      · subst hac
        obtain ⟨rfl, rfl⟩ := hra.inj hrc
        omega
      · have dis : ∀ a ∈ roots, ∀ c ∈ roots, a ≠ c → ∀ m l m' l', a.Range m l → c.Range m' l' → m < l' ∨ m' < l := by
          intro a ha c hc hne
          have this : ∀ (l : List Bind), l.Pairwise (fun a b : Bind => ∀ m l m' l', a.Range m l → b.Range m' l' → m < l' ∨ m' < l) →
              a ∈ l → c ∈ l → a ≠ c → ∀ m l m' l', a.Range m l → c.Range m' l' → m < l' ∨ m' < l := by
            intro l
            induction l with
            | nil => intro _ h; simp at h
            | cons x xs ih =>
              intro hp h1 h2 hne m l m' l' r1 r2
              rw [List.pairwise_cons] at hp
              rcases List.mem_cons.mp h1 with e1 | h1
              · rcases List.mem_cons.mp h2 with e2 | h2
                · exact absurd (e1.trans e2.symm) hne
                · exact hp.1 c h2 m l m' l' (e1 ▸ r1) r2
              · rcases List.mem_cons.mp h2 with e2 | h2
                · exact (hp.1 a h1 m' l' m l (e2 ▸ r2) r1).symm
                · exact ih hp.2 h1 h2 hne m l m' l' r1 r2
          exact this roots hd ha hc hne
        have := dis a ha c hc hac m l mc lc hra hrc
        omega
    rcases List.mem_append.mp hb' with hb' | hb'
    · exact ⟨fun h1 h2 => (sub b hb' m' l' hrb (.inl ⟨h1, h2⟩) (by omega) (by omega)).elim,
        fun h1 h2 => (sub b hb' m' l' hrb (.inr ⟨h1, h2⟩) (by omega) (by omega)).elim⟩
    · obtain ⟨c, hc, mc, lc, hrc, h1, h2⟩ := hin b hb' m' l' hrb
      exact ⟨fun h3 h4 => (sub c hc mc lc hrc (.inl ⟨h3, h4⟩) h1 h2).elim,
        fun h3 h4 => (sub c hc mc lc hrc (.inr ⟨h3, h4⟩) h1 h2).elim⟩
  · obtain ⟨h1, h2⟩ := inner a ha m l hra
    exact ⟨fun _ _ => h1, fun _ _ => h2⟩

/-- **C31 (partial)** Two assignments, unless the second one extends beyond the first one on both sides: after splitting,
any two pieces are equal or disjoint. -/
theorem C31_two_separated_partial (S : MergeEnv) (hS : ConstStable S) (a b : Bind) (m l m' l' : Int) (ha : a.Whole m l)
    (hb : b.Whole m' l') (hne : ¬ (l' < l ∧ m < m')) (ps : List Int) (xs : List Bind)
    (hps : S.splitPositions [a, b] = .ok ps) (hxs : S.splitBindlist ps [a, b] = .ok xs) : Separated xs := by
  have e2 : unmatchedRange [] m l none = [(m, l, none)] := rfl
  have e : [a, b].foldlM S.splitRound ([], []) = .ok (setUnion [] ((matchedRange [(m, l, none)] m' l' none).flatMap (fun r => [r.2.1, r.1 + 1])).eraseDups,
      [(m, l, none)] ++ (matchedRange [(m, l, none)] m' l' none ++ unmatchedRange (matchedRange [(m, l, none)] m' l' none) m' l' none)) := by
    rw [List.foldlM_cons, splitRound_whole hS ha, ok_bind]
    simp only [matchedRange, List.flatMap_nil, List.eraseDups_nil, List.nil_append, e2]
    have e1 : setUnion ([] : List Int) ([] : List Int) = [] := rfl
    rw [e1, List.foldlM_cons, splitRound_whole hS hb, ok_bind]
    rfl
  simp only [MergeEnv.splitPositions, e, ok_bind, ok_inj] at hps
  subst hps
  refine separated_of_covers hS (pairwise_sortOn _) (by
    intro c hc; simp at hc; rcases hc with rfl | rfl
    · exact ⟨m, l, ha⟩
    · exact ⟨m', l', hb⟩) ?_ hxs
  have h1 := ha.2.2
  have h2 := hb.2.2
  have mem : ∀ p, p ∈ sortOn id (setUnion [] ((matchedRange [(m, l, none)] m' l' none).flatMap (fun r => [r.2.1, r.1 + 1])).eraseDups) ↔
      (l ≤ l' ∧ l' ≤ m ∨ l ≤ m' ∧ m' ≤ m) ∧ (p = (if l ≤ l' ∧ l' ≤ m then l' else l) ∨ p = (if l ≤ m' ∧ m' ≤ m then m' else m) + 1) := by
    intro p
    rw [mem_sortOn, mem_setUnion, List.mem_eraseDups]
    simp only [List.not_mem_nil, false_or, matchedRange, List.flatMap_cons, List.flatMap_nil, List.append_nil, matchOne,
      ne_eq, not_true_eq_false, false_and, if_false]
    by_cases c1 : l ≤ l' ∧ l' ≤ m <;> by_cases c2 : l ≤ m' ∧ m' ≤ m <;> simp [c1, c2]
  intro x hx y hy k j k' j' hrx hry
  simp only [mem]
  simp only [List.mem_cons, List.not_mem_nil, or_false] at hx hy
  rcases hx with rfl | rfl <;> rcases hy with rfl | rfl
  · obtain ⟨rfl, rfl⟩ := hrx.inj hry; exact ⟨fun _ _ => by omega, fun _ _ => by omega⟩
  · obtain ⟨rfl, rfl⟩ := hrx.inj ha.1
    obtain ⟨rfl, rfl⟩ := hry.inj hb.1
    refine ⟨fun _ _ => ⟨by omega, .inl ?_⟩, fun _ _ => ⟨by omega, .inr ?_⟩⟩
    · rw [if_neg (by omega)]
    · rw [if_neg (by omega)]
  · obtain ⟨rfl, rfl⟩ := hrx.inj hb.1
    obtain ⟨rfl, rfl⟩ := hry.inj ha.1
    refine ⟨fun _ _ => ⟨by omega, .inl ?_⟩, fun _ _ => ⟨by omega, .inr ?_⟩⟩
    · rw [if_pos (by omega)]
    · rw [if_pos (by omega)]
  · obtain ⟨rfl, rfl⟩ := hrx.inj hry; exact ⟨fun _ _ => by omega, fun _ _ => by omega⟩

/-- **C31** is false of the code: `d[2:1] = s` followed by `d[3:0] = s` is not split at all. -/
theorem C31_containing_false : c30S.splitPositions [c30b 2 1, c30b 3 0] = .ok [] ∧
    c30S.splitBindlist [] [c30b 2 1, c30b 3 0] = .ok [c30b 2 1, c30b 3 0] ∧ ¬ Separated [c30b 2 1, c30b 3 0] := by
  refine ⟨by decide +kernel, by decide +kernel, ?_⟩
  intro h
  have := h (c30b 2 1) (by simp) (c30b 3 0) (by simp) 2 1 3 0 ⟨⟨_, _, _, rfl⟩, ⟨_, _, _, rfl⟩, .inl rfl⟩
    ⟨⟨_, _, _, rfl⟩, ⟨_, _, _, rfl⟩, .inl rfl⟩
  omega

/-- **C31** is false of the code for three assignments no two of which contain each other in this way: `d[3:0]`, `d[5:2]`,
`d[5:5]` — the second one is not split at 5. -/
theorem C31_outside_part_false : c30S.splitPositions [c30b 3 0, c30b 5 2, c30b 5 5] = .ok [2, 4] ∧
    ∀ xs, c30S.splitBindlist [2, 4] [c30b 3 0, c30b 5 2, c30b 5 5] = .ok xs → ¬ Separated xs := by
  refine ⟨by decide +kernel, ?_⟩
  intro xs h hs
  have hS : ConstStable c30S := constStable_real _ 4 _ _ _
  have r1 : (c30b 5 2).Range 5 2 := ⟨⟨_, _, _, rfl⟩, ⟨_, _, _, rfl⟩, .inl rfl⟩
  have r2 : (c30b 5 5).Range 5 5 := ⟨⟨_, _, _, rfl⟩, ⟨_, _, _, rfl⟩, .inl rfl⟩
  simp only [MergeEnv.splitBindlist, bind_ok, ok_inj] at h
  obtain ⟨y1, _, _, ⟨y2, h2, _, ⟨y3, h3, _, rfl, rfl⟩, rfl⟩, rfl⟩ := h
  obtain ⟨_, t2, _⟩ := C30_pieces_tile c30S hS [2, 4] (by decide) _ 5 2 r1 (by decide) y2 h2
  obtain ⟨x, hx, k, hk⟩ := t2 4 (by simp) (by decide) (by decide)
  have fk := piece_facts hS (by decide) r1 (by decide) h2 x hx k 4 hk
  have hk5 : k = 5 := by
    rcases fk.2.2.2.2.1 with h | h
    · exact h
    · simp at h; omega
  subst hk5
  have e3 : y3 = [c30b 5 5] := by
    have : c30S.splitBindPositions (c30b 5 5) [2, 4] = .ok [c30b 5 5] := by decide +kernel
    rw [this, ok_inj] at h3; exact h3.symm
  have := hs x (by simp [hx]) (c30b 5 5) (by simp [e3]) 5 4 5 5 hk r2
  omega

/-- **C31** The code raises (an undefined variable) as soon as two assignments to the same array element overlap. -/
theorem C31_element_overlap_raises (S : MergeEnv) (hS : ConstStable S) (a b : Bind) (m l m' l' v : Int)
    (ha : a.Range m l) (hb : b.Range m' l') (hpa : ∃ w x y, a.ptr = .ev (.int v) w x y) (hpb : ∃ w x y, b.ptr = .ev (.int v) w x y)
    (hov : l ≤ l' ∧ l' ≤ m ∨ l ≤ m' ∧ m' ≤ m) : S.splitPositions [a, b] = .error .name := by
  obtain ⟨⟨_, _, _, a1⟩, ⟨_, _, _, a2⟩, _⟩ := ha
  obtain ⟨⟨_, _, _, b1⟩, ⟨_, _, _, b2⟩, _⟩ := hb
  obtain ⟨_, _, _, a3⟩ := hpa
  obtain ⟨_, _, _, b3⟩ := hpb
  have s1 : S.splitRound ([], []) a = .ok ([], [(m, l, some v)]) := by
    simp only [MergeEnv.splitRound, a1, a2, a3, hS.2, ok_bind, MergeEnv.constRange, reduceCtorEq, and_self, if_false,
      DF.isEv, Bool.and_self, if_true, DF.intAttr, DF.valueAttr, PyVal.toInt, splitStep, positionsFromRange, matchedRange,
      List.flatMap_nil, ne_eq, not_true_eq_false, and_false]
    rfl
  have hm : matchedRange [(m, l, some v)] m' l' (some v) ≠ [] := by
    simp only [matchedRange, List.flatMap_cons, List.flatMap_nil, List.append_nil, matchOne, ne_eq, not_true_eq_false,
      and_false, if_false]
    rcases hov with h | h <;> simp [h]
  have s2 : S.splitRound ([], [(m, l, some v)]) b = .error .name := by
    simp only [MergeEnv.splitRound, b1, b2, b3, hS.2, ok_bind, MergeEnv.constRange, reduceCtorEq, and_self, if_false,
      DF.isEv, Bool.and_self, if_true, DF.intAttr, DF.valueAttr, PyVal.toInt, splitStep, positionsFromRange]
    rw [if_pos ⟨by simp, hm⟩]
    rfl
  simp only [MergeEnv.splitPositions, List.foldlM_cons, s1, ok_bind, s2]
  rfl

/-- Non-vacuity: `d[7:0]`, then `d[3:2]` and `d[3:0]`; and the overlapping pair `d[5:2]`, `d[3:0]`. -/
example : c30S.splitPositions [c30b 7 0, c30b 3 2, c30b 3 0] = .ok [0, 2, 4] ∧ c30S.splitPositions [c30b 5 2, c30b 3 0] = .ok [2, 4] :=
  ⟨by decide +kernel, by decide +kernel⟩
example : ∀ m l : Int, l ≤ m → (c30b m l).Whole m l := fun m l h => ⟨⟨⟨_, _, _, rfl⟩, ⟨_, _, _, rfl⟩, .inl rfl⟩, rfl, h⟩

end Pyv
