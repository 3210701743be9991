import Verif.Merge
import Verif.Util
import Verif.Props.SplitterProps
import Verif.Props.TransitionProps
/-
  C29: merging two assignment trees.
-/
namespace Pyv

/-- The conditions of the conditionals at the top of a tree have a value. -/
def CondsDefined (ρ : Env) : DF → Prop
  | .branch c t f => Defined ρ c ∧ CondsDefined ρ t ∧ CondsDefined ρ f
  | _ => True

/-- Simplification of the conditions of the tree keeps their truth. -/
def KeepsConds (opt : DF → Py DF) (ρ : Env) : DF → Prop
  | .branch c t f => (∀ r, opt c = .ok r → Defined ρ r ∧ (Holds ρ r ↔ Holds ρ c)) ∧ KeepsConds opt ρ t ∧ KeepsConds opt ρ f
  | _ => True

/-- Simplification of the conditions of the tree returns. -/
def OptReturns (opt : DF → Py DF) : DF → Prop
  | .branch c t f => (∃ r, opt c = .ok r) ∧ OptReturns opt t ∧ OptReturns opt f
  | _ => True

/-- No unconditional later assignment meets a conditional earlier one: following equal conditions downwards, the
second tree is never a plain leaf where the first one is still a conditional. -/
def NeverPlainOverCond (opt : DF → Py DF) : DF → DF → Prop
  | .branch c1 t1 f1, .branch c2 t2 f2 => opt c1 = opt c2 → NeverPlainOverCond opt t1 t2 ∧ NeverPlainOverCond opt f1 f2
  | .branch .., .none => True
  | .branch .., _ => False
  | _, _ => True

theorem selectLeaf_branch {ρ : Env} {c t f : DF} (h : Defined ρ c) [Decidable (Holds ρ c)] :
    selectLeaf ρ (.branch c t f) = if Holds ρ c then selectLeaf ρ t else selectLeaf ρ f := by
  obtain ⟨x, hx⟩ := h
  rw [selectLeaf, hx]
  by_cases h0 : x.1 ≠ 0
  · simp [h0, Holds, hx]
  · simp [Holds, hx, h0]

theorem selectLeaf_appendTail {ρ : Env} {a : DF} : ∀ {t : DF}, CondsDefined ρ t →
    selectLeaf ρ (appendTail a t) = (selectLeaf ρ t).or (selectLeaf ρ a) := by
  classical
  intro t
  induction t using DF.ind with
  | branch c t f _ ht hf =>
    rintro ⟨hc, h1, h2⟩
    rw [appendTail, selectLeaf_branch hc, selectLeaf_branch hc, ht h1, hf h2]
    split <;> rfl
  | none => intro _; simp [appendTail, selectLeaf]
  | _ => intro _; simp [appendTail, selectLeaf]

theorem selectLeaf_plain {ρ : Env} {t : DF} (h : t.isBranch = false) (h' : t ≠ .none) : selectLeaf ρ t = some t := by
  cases t <;> first | rfl | exact absurd rfl h' | simp [DF.isBranch] at h

/-- What the code does on a conditional first tree and a plain second one: the *first* one wins. -/
theorem C29_plain_over_conditional (opt : DF → Py DF) (ρ : Env) (c t f second r : DF)
    (h2 : second.isBranch = false) (h3 : second ≠ .none) (hd : CondsDefined ρ (.branch c t f))
    (hk : KeepsConds opt ρ (.branch c t f)) (h : mergeTree opt (.branch c t f) second = .ok r) :
    selectLeaf ρ r = (selectLeaf ρ (.branch c t f)).or (some second) := by
  classical
  have hs : selectLeaf ρ second = some second := by cases second <;> simp_all [selectLeaf, DF.isBranch]
  have hm : mergeTree opt (.branch c t f) second =
      (do let a ← opt c; .ok (.branch a (appendTail second t) (appendTail second f))) := by
    cases second <;> first | (simp_all; done) | rfl | simp [DF.isBranch] at h2
  rw [hm, bind_ok] at h
  obtain ⟨a, ha, h⟩ := h
  rw [ok_inj] at h; subst h
  obtain ⟨hc, ht, hf⟩ := hd
  obtain ⟨hka, _⟩ := hk
  obtain ⟨hda, hha⟩ := hka a ha
  rw [selectLeaf_branch hda, selectLeaf_branch hc, selectLeaf_appendTail ht, selectLeaf_appendTail hf, hs]
  simp only [hha]
  split <;> rfl

/-- The five ways `mergeTree` proceeds. -/
theorem mergeTree_cases (opt : DF → Py DF) (first second r : DF) (h : mergeTree opt first second = .ok r) :
    (∃ c1 t1 f1 c2 t2 f2 a t f, first = .branch c1 t1 f1 ∧ second = .branch c2 t2 f2 ∧ opt c1 = .ok a ∧ opt c2 = .ok a ∧
      mergeTree opt t1 t2 = .ok t ∧ mergeTree opt f1 f2 = .ok f ∧ r = .branch a t f) ∨
    (∃ c2 t2 f2 b, second = .branch c2 t2 f2 ∧ opt c2 = .ok b ∧ first ≠ .none ∧
      (∀ c1 t1 f1, first = .branch c1 t1 f1 → opt c1 ≠ opt c2) ∧
      r = .branch b (appendTail first t2) (appendTail first f2)) ∨
    (second = .none ∧ r = first) ∨
    (first = .none ∧ r = second) ∨
    (∃ c t f, first = .branch c t f ∧ second.isBranch = false ∧ second ≠ .none) ∨
    (first.isBranch = false ∧ second.isBranch = false ∧ second ≠ .none ∧ r = second) := by
  unfold mergeTree at h
  split at h
  · rename_i c1 t1 f1 c2 t2 f2
    simp only [bind_ok] at h
    obtain ⟨a, ha, b, hb, h⟩ := h
    split at h
    · rename_i e; subst e
      simp only [bind_ok, ok_inj] at h
      obtain ⟨t, ht, f, hf, rfl⟩ := h
      exact .inl ⟨c1, t1, f1, c2, t2, f2, a, t, f, rfl, rfl, ha, hb, ht, hf, rfl⟩
    · rename_i hne
      simp only [ok_inj] at h; subst h
      refine .inr (.inl ⟨c2, t2, f2, b, rfl, hb, by simp, ?_, rfl⟩)
      rintro _ _ _ e
      simp only [DF.branch.injEq] at e
      obtain ⟨rfl, _, _⟩ := e
      rw [ha, hb]
      simpa using hne
  · rw [ok_inj] at h; exact .inr (.inr (.inl ⟨rfl, h.symm⟩))
  · rw [ok_inj] at h; exact .inr (.inr (.inr (.inl ⟨rfl, h.symm⟩)))
  · refine .inr (.inr (.inr (.inr (.inl ⟨_, _, _, rfl, ?_, ?_⟩))))
    · cases second <;> simp_all [DF.isBranch]
    · rintro rfl; simp_all
  · rename_i h1 h2 h3 h4
    simp only [bind_ok, ok_inj] at h
    obtain ⟨b, hb, rfl⟩ := h
    refine .inr (.inl ⟨_, _, _, b, rfl, hb, ?_, ?_, rfl⟩)
    · rintro rfl; simp_all
    · rintro c1 t1 f1 rfl; simp_all
  · rename_i h1 h2 h3 h4 h5
    simp only [ok_inj] at h; subst h
    have hb : second.isBranch = false := by cases second <;> simp_all [DF.isBranch]
    by_cases hf : first.isBranch = false
    · refine .inr (.inr (.inr (.inr (.inr ⟨hf, hb, ?_, rfl⟩))))
      rintro rfl; simp_all
    · cases first <;> simp_all [DF.isBranch]

/-- **C29 (partial)** Where the second tree assigns, the merged tree selects its leaf; elsewhere the first tree's.
Excluded are the pairs in which an unconditional second assignment meets a conditional first one: see
`C29_plain_over_conditional`, `C29_last_assignment_lost_false`. -/
theorem C29_later_wins_partial (opt : DF → Py DF) (ρ : Env) (first second r : DF)
    (hd1 : CondsDefined ρ first) (hd2 : CondsDefined ρ second) (hk1 : KeepsConds opt ρ first) (hk2 : KeepsConds opt ρ second)
    (hn : NeverPlainOverCond opt first second) (h : mergeTree opt first second = .ok r) :
    selectLeaf ρ r = (selectLeaf ρ second).or (selectLeaf ρ first) := by
  classical
  induction first using DF.ind generalizing second r with
  | branch c1 t1 f1 _ iht ihf =>
    rcases mergeTree_cases opt _ _ _ h with ⟨c1', t1', f1', c2, t2, f2, a, t, f, e, rfl, ha, hb, ht, hf, rfl⟩ |
      ⟨c2, t2, f2, b, rfl, hb, _, _, rfl⟩ | ⟨rfl, rfl⟩ | ⟨e, _⟩ | ⟨c, t, f, e, hs, hs'⟩ | ⟨e, _⟩
    · simp only [DF.branch.injEq] at e
      obtain ⟨rfl, rfl, rfl⟩ := e
      obtain ⟨d1, d1t, d1f⟩ := hd1
      obtain ⟨d2, d2t, d2f⟩ := hd2
      obtain ⟨k1, k1t, k1f⟩ := hk1
      obtain ⟨k2, k2t, k2f⟩ := hk2
      obtain ⟨da, ea⟩ := k1 a ha
      obtain ⟨_, eb⟩ := k2 a hb
      obtain ⟨nt, nf⟩ := hn (by rw [ha, hb])
      rw [selectLeaf_branch da, selectLeaf_branch d1, selectLeaf_branch d2, iht t2 t d1t d2t k1t k2t nt ht,
        ihf f2 f d1f d2f k1f k2f nf hf]
      simp only [← ea, ← eb]
      split <;> rfl
    · obtain ⟨d2, d2t, d2f⟩ := hd2
      obtain ⟨k2, k2t, k2f⟩ := hk2
      obtain ⟨db, eb⟩ := k2 b hb
      rw [selectLeaf_branch db, selectLeaf_branch d2, selectLeaf_appendTail d2t, selectLeaf_appendTail d2f]
      simp only [eb]
      split <;> rfl
    · simp [selectLeaf]
    · simp at e
    · cases second <;> simp_all [NeverPlainOverCond, DF.isBranch]
    · simp [DF.isBranch] at e
  | _ =>
    rcases mergeTree_cases opt _ _ _ h with ⟨c1', t1', f1', c2, t2, f2, a, t, f, e, rfl, ha, hb, ht, hf, rfl⟩ |
      ⟨c2, t2, f2, b, rfl, hb, _, _, rfl⟩ | ⟨rfl, rfl⟩ | ⟨e, rfl⟩ | ⟨c, t, f, e, hs, hs'⟩ | ⟨_, hs, hs', rfl⟩
    · simp at e
    · obtain ⟨d2, d2t, d2f⟩ := hd2
      obtain ⟨k2, k2t, k2f⟩ := hk2
      obtain ⟨db, eb⟩ := k2 b hb
      rw [selectLeaf_branch db, selectLeaf_branch d2, selectLeaf_appendTail d2t, selectLeaf_appendTail d2f]
      simp only [eb]
      split <;> rfl
    · simp [selectLeaf]
    · first | (simp at e; done) | simp [selectLeaf]
    · simp at e
    · rw [selectLeaf_plain hs hs']; rfl

/-- **C29** For all pairs of trees, also those of `C29_plain_over_conditional`: nothing is invented and nothing is lost;
the merged tree selects the leaf of one of the two trees, and if only one of them assigns, its leaf. -/
theorem C29_one_of_the_two (opt : DF → Py DF) (ρ : Env) (first second r : DF)
    (hd1 : CondsDefined ρ first) (hd2 : CondsDefined ρ second) (hk1 : KeepsConds opt ρ first) (hk2 : KeepsConds opt ρ second)
    (h : mergeTree opt first second = .ok r) :
    selectLeaf ρ r = (selectLeaf ρ second).or (selectLeaf ρ first) ∨
    selectLeaf ρ r = (selectLeaf ρ first).or (selectLeaf ρ second) := by
  classical
  induction first using DF.ind generalizing second r with
  | branch c1 t1 f1 _ iht ihf =>
    have hcopy := h
    rcases mergeTree_cases opt _ _ _ h with ⟨c1', t1', f1', c2, t2, f2, a, t, f, e, rfl, ha, hb, ht, hf, rfl⟩ |
      ⟨c2, t2, f2, b, rfl, hb, _, hne, rfl⟩ | ⟨rfl, rfl⟩ | ⟨e, _⟩ | ⟨c, t, f, e, hs, hs'⟩ | ⟨e, _⟩
    · simp only [DF.branch.injEq] at e
      obtain ⟨rfl, rfl, rfl⟩ := e
      obtain ⟨d1, d1t, d1f⟩ := hd1
      obtain ⟨d2, d2t, d2f⟩ := hd2
      obtain ⟨k1, k1t, k1f⟩ := hk1
      obtain ⟨k2, k2t, k2f⟩ := hk2
      obtain ⟨da, ea⟩ := k1 a ha
      obtain ⟨_, eb⟩ := k2 a hb
      rw [selectLeaf_branch da, selectLeaf_branch d1, selectLeaf_branch d2]
      simp only [← ea, ← eb]
      split
      · exact iht t2 t d1t d2t k1t k2t ht
      · exact ihf f2 f d1f d2f k1f k2f hf
    · left
      refine C29_later_wins_partial opt ρ _ _ _ hd1 hd2 hk1 hk2 ?_ hcopy
      simp only [NeverPlainOverCond]
      exact fun e => absurd e (hne _ _ _ rfl)
    · left; simp [selectLeaf]
    · simp at e
    · right
      have : selectLeaf ρ second = some second := selectLeaf_plain hs hs'
      rw [C29_plain_over_conditional opt ρ _ _ _ second r hs hs' hd1 hk1 hcopy, this]
    · simp [DF.isBranch] at e
  | _ => exact .inl (C29_later_wins_partial opt ρ _ second r hd1 hd2 hk1 hk2 (by cases second <;> trivial) h)

/-- **C29** `mergeTree` returns whenever the simplification of the conditions does. -/
theorem C29_merge_total (opt : DF → Py DF) (first second : DF) (h1 : OptReturns opt first) (h2 : OptReturns opt second) :
    ∃ r, mergeTree opt first second = .ok r := by
  induction first using DF.ind generalizing second with
  | branch c1 t1 f1 _ iht ihf =>
    obtain ⟨⟨a, ha⟩, h1t, h1f⟩ := h1
    cases second with
    | branch c2 t2 f2 =>
      obtain ⟨⟨b, hb⟩, h2t, h2f⟩ := h2
      obtain ⟨t, ht⟩ := iht t2 h1t h2t
      obtain ⟨f, hf⟩ := ihf f2 h1f h2f
      simp only [mergeTree, ha, hb, ht, hf, ok_bind]
      split
      · exact ⟨_, rfl⟩
      · exact ⟨_, rfl⟩
    | none => exact ⟨_, rfl⟩
    | _ => simp only [mergeTree, ha, ok_bind]; exact ⟨_, rfl⟩
  | _ =>
    cases second with
    | branch c2 t2 f2 =>
      obtain ⟨⟨b, hb⟩, h2t, h2f⟩ := h2
      simp only [mergeTree, hb, ok_bind]
      exact ⟨_, rfl⟩
    | _ => exact ⟨_, rfl⟩

/-- **C29** is false of the code: `if (s) x = 1;` followed by `x = 2;` — the last assignment is lost when `s` holds. -/
theorem C29_last_assignment_lost_false :
    let first : DF := .branch (.term c23s) (.evi 1 (some 32)) .none
    let second : DF := .evi 2 (some 32)
    ∃ r, mergeTree .ok first second = .ok r ∧ selectLeaf (c23env 1 0) second = some second ∧
      selectLeaf (c23env 1 0) r = some (.evi 1 (some 32)) := by
  refine ⟨.branch (.term c23s) (.evi 1 (some 32)) (.evi 2 (some 32)), by decide +kernel, rfl, ?_⟩
  simp [selectLeaf, sem, c23env]

/-- Non-vacuity: `if (s) x = 1; else if (d) x = 2;` then `if (s) { if (d) x = 3 } else x = 4`, simplification being the identity. -/
def c29a : DF := .branch (.term c23s) (.evi 1 (some 32)) (.branch (.term c23d) (.evi 2 (some 32)) .none)
def c29b : DF := .branch (.term c23s) (.branch (.term c23d) (.evi 3 (some 32)) .none) .none
def c29c : DF := .branch (.term c23d) (.branch (.term c23s) (.evi 3 (some 32)) .none) .none
example (v x : Int) : CondsDefined (c23env v x) c29a ∧ CondsDefined (c23env v x) c29b ∧
    KeepsConds .ok (c23env v x) c29a ∧ KeepsConds .ok (c23env v x) c29b ∧ NeverPlainOverCond .ok c29a c29b ∧
    NeverPlainOverCond .ok c29a c29c := by
  have d : ∀ n, Defined (c23env v x) (.term n) := by
    intro n
    by_cases h : n = c23s
    · exact ⟨(v, 2), by simp [sem, c23env, h]⟩
    · exact ⟨(x, 2), by simp [sem, c23env, h]⟩
  simp [c29a, c29b, c29c, CondsDefined, KeepsConds, NeverPlainOverCond, d, c23s, c23d]
example : mergeTree .ok c29a c29b = .ok (.branch (.term c23s)
    (.branch (.term c23d) (.evi 3 (some 32)) (.evi 1 (some 32))) (.branch (.term c23d) (.evi 2 (some 32)) .none)) := by
  decide +kernel

end Pyv
