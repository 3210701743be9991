import Verif.Props.ConstFoldProps
/-
  C10: optimization introduces no signals (hierarchical simplification and the whole optimizer).
-/
namespace Pyv

/-- All signals of `r` are signals of `t`. -/
def NoNew (t r : DF) : Prop := ∀ x ∈ r.terms, x ∈ t.terms

/-- All signals of the list `rs` are signals of the list `ns`. -/
def NoNewL (ns rs : List DF) : Prop := ∀ x ∈ DF.termsList rs, x ∈ DF.termsList ns

theorem NoNew.refl {t} : NoNew t t := fun _ h => h
theorem NoNew.trans {a b c} (h : NoNew a b) (h' : NoNew b c) : NoNew a c := fun x hx => h x (h' x hx)
theorem NoNewL.trans {a b c} (h : NoNewL a b) (h' : NoNewL b c) : NoNewL a c := fun x hx => h x (h' x hx)
theorem NoNewL.refl {a} : NoNewL a a := fun _ h => h

theorem termsList_append {a b : List DF} : DF.termsList (a ++ b) = DF.termsList a ++ DF.termsList b := by
  induction a with
  | nil => rfl
  | cons x a ih => simp [DF.termsList, ih]

theorem termsList_sub {a b : List DF} (h : ∀ n ∈ a, n ∈ b) : NoNewL b a := by
  intro x hx
  rw [DF.mem_termsList] at hx ⊢
  obtain ⟨n, hn, hx⟩ := hx
  exact ⟨n, h n hn, hx⟩

theorem mkOp_terms {o ns r} (h : DF.mkOp o ns = .ok r) : r.terms = DF.termsList ns := by
  rw [(DF.mkOp_ok h).1]; rfl

theorem replaceOperator_terms {ctx : OptCtx} {t r} (h : ctx.replaceOperator t = .ok r) : NoNew t r := by
  unfold OptCtx.replaceOperator at h
  intro x hx
  split at h
  · split at h
    · rw [mkOp_terms h] at hx
      simp [DF.termsList, DF.terms] at hx ⊢; tauto
    · split at h
      · rw [mkOp_terms h] at hx
        simp [DF.termsList, DF.terms] at hx ⊢; tauto
      · simp at h; subst h; exact hx
  · simp at h
  · split at h
    · rw [mkOp_terms h] at hx
      simp [DF.termsList, DF.terms] at hx ⊢; tauto
    · simp at h; subst h; exact hx
  · simp at h
  · simp at h; subst h; exact hx

theorem mergeIdenticalNodes_terms {t r} (h : mergeIdenticalNodes t = .ok r) : NoNew t r := by
  unfold mergeIdenticalNodes at h
  intro x hx
  split at h
  · simp at h
  · simp at h; subst h; exact hx
  · split at h
    · simp at h; subst h; exact hx
    · split at h <;> simp at h <;> subst h <;> simp [DF.termsList, DF.terms] at hx ⊢ <;> tauto
  · simp at h; subst h; exact hx

theorem landLorFirst_terms {l r y x} (h : landLorFirst l r = some y) (hx : x ∈ y.terms) : x ∈ l.terms := by
  unfold landLorFirst at h
  split at h
  · rename_i l0 l1 r0 r1 hl hr
    split at h
    · simp at h; subst h
      unfold asLand at hl
      split at hl <;> simp at hl
      obtain ⟨rfl, rfl⟩ := hl
      simp [DF.terms, DF.termsList, hx]
    · simp at h
  · simp at h

theorem landLorSecond_terms {l r y x} (h : landLorSecond l r = some y) (hx : x ∈ y.terms) : x ∈ l.terms := by
  unfold landLorSecond at h
  split at h
  · rename_i l0 l1 r0 r1 hl hr
    split at h
    · simp at h; subst h
      unfold asLand at hl
      split at hl <;> simp at hl
      obtain ⟨rfl, rfl⟩ := hl
      simp [DF.terms, DF.termsList, hx]
    · simp at h
  · simp at h

theorem mergeStaticNodes_terms {ctx : OptCtx} {k t r} (h : ctx.mergeStaticNodes k t = .ok r) : NoNew t r := by
  unfold OptCtx.mergeStaticNodes at h
  intro x hx
  split at h
  · repeat' split at h
    all_goals simp only [bind_ok, ok_inj] at h
    · obtain ⟨w, _, rfl⟩ := h; simp [DF.terms] at hx
    · obtain ⟨w, _, h⟩ := h
      split at h <;> simp at h <;> subst h
      · simp [DF.terms] at hx
      · exact hx
    · subst h; exact hx
  · repeat' split at h
    all_goals simp only [bind_ok, ok_inj] at h
    · subst h; simp [DF.terms, DF.termsList, hx]
    · subst h; simp [DF.terms, DF.termsList, hx]
    · obtain ⟨w, _, v, _, rfl⟩ := h; simp [DF.terms] at hx
    · obtain ⟨w, _, h⟩ := h
      split at h <;> simp at h <;> subst h
      · simp [DF.terms] at hx
      · exact hx
    · subst h; exact hx
  · repeat' split at h
    all_goals simp only [bind_ok, ok_inj] at h
    · subst h; simp [DF.terms] at hx
    · subst h; simp [DF.terms, DF.termsList, hx]
    · subst h; simp [DF.terms, DF.termsList, hx]
    · obtain ⟨w, _, h⟩ := h
      split at h <;> simp at h <;> subst h
      · simp [DF.terms] at hx
      · exact hx
    · subst h; simp [DF.terms] at hx
    · subst h; simp [DF.terms] at hx
    · subst h; simp [DF.terms, DF.termsList, hx]
    · subst h; simp [DF.terms, DF.termsList, hx]
    · subst h; exact hx
  · split at h
    · simp at h; subst h; simp [DF.terms, DF.termsList, hx]
    · split at h
      · simp at h; subst h; simp [DF.terms, DF.termsList, hx]
      · repeat' split at h
        all_goals simp only [ok_inj] at h
        all_goals subst h
        · simp [DF.terms] at hx
        · simp [DF.terms] at hx
        · simp [DF.terms] at hx
        · rename_i e; simp [DF.terms, DF.termsList, landLorFirst_terms e hx]
        · rename_i e; simp [DF.terms, DF.termsList, landLorSecond_terms e hx]
        · rename_i e; simp [DF.terms, DF.termsList, landLorFirst_terms e hx]
        · rename_i e; simp [DF.terms, DF.termsList, landLorSecond_terms e hx]
        · exact hx
  · simp at h
  · simp at h; subst h; exact hx

/-! ### flattening of conjunctions and disjunctions -/

theorem dedupe_mem {ret ls rs : List DF} (h : dedupe ret ls = .ok (some rs)) : ∀ n ∈ rs, n ∈ ret ∨ n ∈ ls := by
  induction ls generalizing ret with
  | nil => simp [dedupe] at h; subst h; intro n hn; exact .inl hn
  | cons l ls ih =>
    simp only [dedupe, bind_ok] at h
    obtain ⟨nl, _, h⟩ := h
    split at h
    · simp at h
    · split at h
      · intro n hn
        rcases ih h n hn with h1 | h1
        · exact .inl h1
        · exact .inr (by simp [h1])
      · intro n hn
        rcases ih h n hn with h1 | h1
        · simp at h1
          rcases h1 with h1 | h1
          · exact .inl h1
          · exact .inr (by simp [h1])
        · exact .inr (by simp [h1])

theorem insertDesc_perm (x : Str × DF) (l : List (Str × DF)) : (insertDesc x l).Perm (x :: l) := by
  induction l with
  | nil => exact .refl _
  | cons y ys ih =>
    simp only [insertDesc]
    split
    · exact .refl _
    · exact (ih.cons y).trans (.swap x y ys)

theorem sortByCode_perm {ns rs : List DF} (h : sortByCode ns = .ok rs) : rs.Perm ns := by
  unfold sortByCode at h
  simp only [bind_ok, ok_inj] at h
  obtain ⟨keyed, hk, rfl⟩ := h
  rw [mapM_ok] at hk
  have h1 : keyed.map (·.2) = ns := by
    induction hk with
    | nil => rfl
    | cons h1 _ ih =>
      simp only [bind_ok, ok_inj] at h1
      obtain ⟨c, _, rfl⟩ := h1
      simp [ih]
  have h2 : (keyed.foldr insertDesc []).Perm keyed := by
    clear hk h1
    induction keyed with
    | nil => exact .refl _
    | cons x l ih => exact (insertDesc_perm x _).trans (ih.cons x)
  rw [← h1]
  exact h2.map _

theorem rebuild_terms {o ns r} (h : rebuild o ns = .ok r) : ∀ x ∈ r.terms, x ∈ DF.termsList ns := by
  cases ns with
  | nil => simp [rebuild] at h; subst h; simp [DF.terms]
  | cons n ns =>
    simp only [rebuild] at h
    have key : ∀ (ns : List DF) (n r : DF), ns.foldlM (fun acc r => DF.mkOp o [acc, r]) n = .ok r →
        ∀ x ∈ r.terms, x ∈ n.terms ∨ x ∈ DF.termsList ns := by
      intro ns
      induction ns with
      | nil => intro n r h x hx; simp [pure, Except.pure] at h; subst h; exact .inl hx
      | cons m ns ih =>
        intro n r h x hx
        simp only [List.foldlM_cons, bind_ok] at h
        obtain ⟨a, ha, h⟩ := h
        rcases ih a r h x hx with h1 | h1
        · rw [mkOp_terms ha] at h1
          simp [DF.termsList] at h1 ⊢; tauto
        · simp [DF.termsList, h1]
    intro x hx
    simpa [DF.termsList] using key ns n r h x hx

theorem mergeLandAux_terms (t : DF) : ∀ {f}, mergeLandAux t = .ok f → ∀ x ∈ DF.termsList f.list, x ∈ t.terms := by
  induction t using DF.ind with
  | op o ns ih =>
    intro f h
    unfold mergeLandAux at h
    split at h
    · rename_i a b r heq
      simp only [DF.op.injEq] at heq
      obtain ⟨rfl, rfl⟩ := heq
      simp only [bind_ok] at h
      obtain ⟨l, hl, r', hr, d, hd, h⟩ := h
      split at h
      · simp at h; subst h; simp [Flat.list, DF.termsList, DF.terms]
      · simp only [bind_ok, ok_inj] at h
        obtain ⟨s, hs, rfl⟩ := h
        intro x hx
        have hp := sortByCode_perm hs
        have := termsList_sub (fun n hn => (hp.mem_iff).mp hn) x hx
        have := termsList_sub (b := l.list ++ r'.list) (fun n hn => by simpa using dedupe_mem hd n hn) x this
        rw [termsList_append] at this
        simp only [DF.terms, DF.termsList, List.mem_append] at this ⊢
        rcases this with h1 | h1
        · exact .inl (ih a (by simp) hl x h1)
        · exact .inr (.inl (ih b (by simp) hr x h1))
    · simp at h
    · simp at h; subst h; simp [Flat.list, DF.termsList]
  | _ => intro f h; simp [mergeLandAux] at h; subst h; simp [Flat.list, DF.termsList]

theorem mergeLand_terms {t r} (h : mergeLand t = .ok r) : NoNew t r := by
  unfold mergeLand at h
  simp only [bind_ok] at h
  obtain ⟨f, hf, h⟩ := h
  have := mergeLandAux_terms t hf
  intro x hx
  cases f with
  | node m => simp at h; subst h; exact this x (by simp [Flat.list, DF.termsList, hx])
  | tup ns => exact this x (rebuild_terms h x hx)

theorem mergeLorAux_terms (t : DF) : ∀ {f}, mergeLorAux t = .ok f → ∀ x ∈ DF.termsList f.list, x ∈ t.terms := by
  induction t using DF.ind with
  | op o ns ih =>
    intro f h
    unfold mergeLorAux at h
    split at h
    · rename_i ms heq
      simp only [DF.op.injEq] at heq
      obtain ⟨rfl, rfl⟩ := heq
      simp only [bind_ok, ok_inj] at h
      obtain ⟨m, hm, rfl⟩ := h
      intro x hx
      exact mergeLand_terms hm x (by simpa [Flat.list, DF.termsList] using hx)
    · rename_i a b r heq
      simp only [DF.op.injEq] at heq
      obtain ⟨rfl, rfl⟩ := heq
      simp only [bind_ok] at h
      obtain ⟨l, hl, r', hr, d, hd, h⟩ := h
      split at h
      · simp at h; subst h; simp [Flat.list, DF.termsList, DF.terms]
      · simp only [bind_ok, ok_inj] at h
        obtain ⟨s, hs, rfl⟩ := h
        intro x hx
        have hp := sortByCode_perm hs
        have := termsList_sub (fun n hn => (hp.mem_iff).mp hn) x hx
        have := termsList_sub (b := l.list ++ r'.list) (fun n hn => by simpa using dedupe_mem hd n hn) x this
        rw [termsList_append] at this
        simp only [DF.terms, DF.termsList, List.mem_append] at this ⊢
        rcases this with h1 | h1
        · exact .inl (ih a (by simp) hl x h1)
        · exact .inr (.inl (ih b (by simp) hr x h1))
    · simp at h
    · simp at h; subst h; simp [Flat.list, DF.termsList]
  | _ => intro f h; simp [mergeLorAux] at h; subst h; simp [Flat.list, DF.termsList]

theorem mergeLandLor_terms {t r} (h : mergeLandLor t = .ok r) : NoNew t r := by
  unfold mergeLandLor at h
  simp only [bind_ok] at h
  obtain ⟨f, hf, h⟩ := h
  have := mergeLorAux_terms t hf
  intro x hx
  cases f with
  | node m => simp at h; subst h; exact this x (by simp [Flat.list, DF.termsList, hx])
  | tup ns => exact this x (rebuild_terms h x hx)

/-! ### concatenations -/

theorem termsList_tail {l : List DF} : ∀ x ∈ DF.termsList l.tail, x ∈ DF.termsList l := by
  cases l <;> simp [DF.termsList]; tauto

theorem termsList_reverse {l : List DF} : ∀ x, x ∈ DF.termsList l.reverse ↔ x ∈ DF.termsList l := by
  intro x; simp [DF.mem_termsList]

theorem mergeConcatConst_terms {ctx : OptCtx} {ns ret run rs} (h : ctx.mergeConcatConst ret run ns = .ok rs) :
    ∀ x ∈ DF.termsList rs, x ∈ DF.termsList ret ∨ x ∈ DF.termsList ns := by
  induction ns generalizing ret run with
  | nil => simp [OptCtx.mergeConcatConst] at h; subst h; intro x hx; exact .inl ((termsList_reverse x).mp hx)
  | cons n ns ih =>
    simp only [OptCtx.mergeConcatConst] at h
    intro x hx
    split at h
    · simp only [bind_ok] at h
      obtain ⟨c, hc, h⟩ := h
      obtain ⟨v, w, rfl⟩ := evalConcatAux_isEv hc
      rcases ih h x hx with h1 | h1
      · simp only [DF.termsList, DF.terms, List.nil_append] at h1
        split at h1
        · exact .inl (termsList_tail x h1)
        · exact .inl h1
      · right; simp [DF.termsList, h1]
    · rcases ih h x hx with h1 | h1
      · simp [DF.termsList] at h1 ⊢; tauto
      · right; simp [DF.termsList, h1]

theorem mergeConcatUndef_terms {ctx : OptCtx} {ns ret w rs} (h : ctx.mergeConcatUndef ret w ns = .ok rs) :
    ∀ x ∈ DF.termsList rs, x ∈ DF.termsList ret ∨ x ∈ DF.termsList ns := by
  induction ns generalizing ret w with
  | nil => simp [OptCtx.mergeConcatUndef] at h; subst h; intro x hx; exact .inl ((termsList_reverse x).mp hx)
  | cons n ns ih =>
    simp only [OptCtx.mergeConcatUndef] at h
    intro x hx
    split at h
    · rcases ih h x hx with h1 | h1
      · simp only [DF.termsList, DF.terms, List.nil_append] at h1
        split at h1
        · exact .inl (termsList_tail x h1)
        · exact .inl h1
      · right; simp [DF.termsList, h1]
    · rcases ih h x hx with h1 | h1
      · simp [DF.termsList] at h1 ⊢; tauto
      · right; simp [DF.termsList, h1]

theorem sameVarPsel_some {last n a m l m' l'} (h : sameVarPsel last n = some (a, m, l, m', l')) :
    last = some (.psel (.term a) m l) ∧ n = .psel (.term a) m' l' := by
  unfold sameVarPsel at h
  split at h
  · split at h
    · rename_i e; subst e; simp at h; obtain ⟨rfl, rfl, rfl, rfl, rfl⟩ := h; exact ⟨rfl, rfl⟩
    · simp at h
  · simp at h

theorem mergeConcatPsel_terms {ctx : OptCtx} {k ns ret last rs} (hl : ∀ y, last = some y → y ∈ ret)
    (h : ctx.mergeConcatPsel k ret last ns = .ok rs) :
    ∀ x ∈ DF.termsList rs, x ∈ DF.termsList ret ∨ x ∈ DF.termsList ns := by
  induction ns generalizing ret last with
  | nil => simp [OptCtx.mergeConcatPsel] at h; subst h; intro x hx; exact .inl ((termsList_reverse x).mp hx)
  | cons n ns ih =>
    simp only [OptCtx.mergeConcatPsel] at h
    intro x hx
    split at h
    · rename_i a m l m' l' e
      obtain ⟨rfl, rfl⟩ := sameVarPsel_some e
      have hret := hl _ rfl
      simp only [bind_ok] at h
      obtain ⟨lv, _, mv', _, h⟩ := h
      split at h
      · simp only [bind_ok] at h
        obtain ⟨w, _, mv, _, lv', _, h⟩ := h
        rcases ih (by simp) h x hx with h1 | h1
        · simp only [DF.termsList, List.mem_append] at h1
          rcases h1 with h1 | h1
          · split at h1
            · left; rw [DF.mem_termsList]; exact ⟨_, hret, by simp [DF.terms] at h1 ⊢; tauto⟩
            · simp only [DF.terms, List.mem_append] at h1
              rcases h1 with (h1 | h1) | h1
              · left; rw [DF.mem_termsList]; exact ⟨_, hret, by simp [DF.terms] at h1 ⊢; tauto⟩
              · left; rw [DF.mem_termsList]; exact ⟨_, hret, by simp [DF.terms] at h1 ⊢; tauto⟩
              · right; simp [DF.termsList, DF.terms, h1]
          · exact .inl (termsList_tail x h1)
        · right; simp [DF.termsList, h1]
      · rcases ih (by simp) h x hx with h1 | h1
        · simp only [DF.termsList, List.mem_append] at h1 ⊢; tauto
        · right; simp [DF.termsList, h1]
    · rcases ih (by simp) h x hx with h1 | h1
      · simp only [DF.termsList, List.mem_append] at h1 ⊢; tauto
      · right; simp [DF.termsList, h1]

theorem fillNone_terms {ctx : OptCtx} {k a b r} (h : ctx.fillNone k a b = .ok r) : NoNew a r := by
  unfold OptCtx.fillNone at h
  split at h
  · simp only [bind_ok, ok_inj] at h
    obtain ⟨w, _, rfl⟩ := h; intro x hx; simp [DF.terms] at hx
  · simp at h; subst h; exact .refl

theorem mergeConcatBranch_terms {ctx : OptCtx} {k ns ret last rs} (hl : ∀ y, last = some y → y ∈ ret)
    (h : ctx.mergeConcatBranch k ret last ns = .ok rs) :
    ∀ x ∈ DF.termsList rs, x ∈ DF.termsList ret ∨ x ∈ DF.termsList ns := by
  induction ns generalizing ret last with
  | nil => simp [OptCtx.mergeConcatBranch] at h; subst h; intro x hx; exact .inl ((termsList_reverse x).mp hx)
  | cons n ns ih =>
    simp only [OptCtx.mergeConcatBranch] at h
    intro x hx
    have other : ctx.mergeConcatBranch k (n :: ret) (some n) ns = .ok rs →
        x ∈ DF.termsList ret ∨ x ∈ DF.termsList (n :: ns) := by
      intro h
      rcases ih (by simp) h x hx with h1 | h1
      · simp only [DF.termsList, List.mem_append] at h1 ⊢; tauto
      · right; simp [DF.termsList, h1]
    split at h
    · rename_i c t f c' t' f'
      have hret := hl _ rfl
      split at h
      · rename_i e; subst e
        simp only [bind_ok] at h
        obtain ⟨a, ha, a', ha', b, hb, b', hb', h⟩ := h
        rcases ih (by simp) h x hx with h1 | h1
        · simp only [DF.termsList, DF.terms, List.mem_append, List.append_nil] at h1
          have hm : (x ∈ c.terms ∨ x ∈ t.terms ∨ x ∈ f.terms) → x ∈ DF.termsList ret := by
            intro hh
            rw [DF.mem_termsList]
            exact ⟨_, hret, by simp [DF.terms]; tauto⟩
          rcases h1 with ((h1 | h1 | h1) | h1 | h1) | h1
          · exact .inl (hm (.inl h1))
          · exact .inl (hm (.inr (.inl (fillNone_terms ha x h1))))
          · right; simp [DF.termsList, DF.terms, fillNone_terms ha' x h1]
          · exact .inl (hm (.inr (.inr (fillNone_terms hb x h1))))
          · right; simp [DF.termsList, DF.terms, fillNone_terms hb' x h1]
          · exact .inl (termsList_tail x h1)
        · right; simp [DF.termsList, h1]
      · exact other h
    · exact other h

theorem unwrapConcat_terms {ns : List DF} : (unwrapConcat ns).terms = DF.termsList ns := by
  unfold unwrapConcat
  split <;> simp [DF.terms, DF.termsList]

theorem mergeConcat_terms {ctx : OptCtx} {k ns r} (h : ctx.mergeConcat k ns = .ok r) :
    ∀ x ∈ r.terms, x ∈ DF.termsList ns := by
  unfold OptCtx.mergeConcat at h
  simp only [bind_ok] at h
  obtain ⟨a, ha, b, hb, c, hc, h⟩ := h
  have h1 : ∀ x ∈ DF.termsList c, x ∈ DF.termsList ns := by
    intro x hx
    have hx := mergeConcatPsel_terms (by simp) hc x hx
    simp [DF.termsList] at hx
    have hx := mergeConcatUndef_terms hb x hx
    simp [DF.termsList] at hx
    have hx := mergeConcatConst_terms ha x hx
    simpa [DF.termsList] using hx
  split at h
  · rename_i ms hms
    simp only [bind_ok, ok_inj] at h
    obtain ⟨d, hd, rfl⟩ := h
    intro x hx
    rw [unwrapConcat_terms] at hx
    have hx := mergeConcatBranch_terms (by simp) hd x hx
    simp [DF.termsList] at hx
    apply h1
    rw [← unwrapConcat_terms, hms]
    exact hx
  · simp at h; subst h
    intro x hx
    rw [unwrapConcat_terms] at hx
    exact h1 x hx

/-! ### takePart -/

theorem takeLoop_terms {ctx : OptCtx} {k lc mc l st st'} (h : ctx.takeLoop k lc mc l st = .ok st') :
    ∀ x ∈ DF.termsList st'.used, x ∈ DF.termsList st.used ∨ x ∈ DF.termsList (l.map (·.2)) := by
  induction l generalizing st with
  | nil => simp [OptCtx.takeLoop] at h; subst h; exact fun x hx => .inl hx
  | cons p l ih =>
    obtain ⟨w, n⟩ := p
    simp only [OptCtx.takeLoop, bind_ok] at h
    obtain ⟨s1, hs1, h⟩ := h
    have hu : ∀ x ∈ DF.termsList s1.used, x ∈ DF.termsList st.used ∨ x ∈ n.terms := by
      intro x hx
      have hst : (st.enter lc w).used = st.used := by unfold TakeSt.enter; split <;> rfl
      unfold OptCtx.takeUse at hs1
      split at hs1
      · simp only [bind_ok, ok_inj] at hs1
        obtain ⟨n', hn', rfl⟩ := hs1
        simp only [DF.termsList, List.mem_append] at hx
        rcases hx with hx | hx
        · exact .inr (C10_optimizeConstant_terms _ _ _ _ hn' x hx)
        · rw [hst] at hx; exact .inl hx
      · simp only [ok_inj] at hs1
        subst hs1
        rw [hst] at hx; exact .inl hx
    intro x hx
    split at h
    · simp at h; subst h
      rcases hu x hx with h1 | h1
      · exact .inl h1
      · right; simp [DF.termsList, h1]
    · rcases ih h x hx with h1 | h1
      · rcases hu x h1 with h1 | h1
        · exact .inl h1
        · right; simp [DF.termsList, h1]
      · right; simp [DF.termsList, h1]

theorem takeCut_terms {ctx : OptCtx} {k lo mo tot ns cnt wids rs} (h : ctx.takeCut k lo mo tot cnt wids ns = .ok rs) :
    NoNewL ns rs := by
  induction ns generalizing cnt wids rs with
  | nil => simp [OptCtx.takeCut] at h; subst h; exact .refl
  | cons n ns ih =>
    simp only [OptCtx.takeCut, bind_ok, ok_inj] at h
    obtain ⟨w, _, y, hy, xs, hxs, rfl⟩ := h
    intro x hx
    simp only [DF.termsList, List.mem_append] at hx ⊢
    rcases hx with hx | hx
    · left
      have := C10_optimizeConstant_terms _ _ _ _ hy x hx
      unfold takeCutTree at this
      split at this
      · simpa [DF.terms] using this
      · split at this
        · simpa [DF.terms] using this
        · exact this
    · exact .inr (ih hxs x hx)

theorem takePart_terms {ctx : OptCtx} {k ns m l r} (h : ctx.takePart k ns m l = .ok r) :
    ∀ x ∈ r.terms, x ∈ DF.termsList ns := by
  unfold OptCtx.takePart at h
  simp only [bind_ok] at h
  obtain ⟨wids, _, mv, _, lv, _, st, hst, h⟩ := h
  have hu : ∀ x ∈ DF.termsList st.used, x ∈ DF.termsList ns := by
    intro x hx
    rcases takeLoop_terms hst x hx with h1 | h1
    · simp [DF.termsList] at h1
    · refine (termsList_reverse x).mp (termsList_sub ?_ x h1)
      intro n hn
      obtain ⟨p, hp, rfl⟩ := List.mem_map.mp hn
      exact (List.of_mem_zip (a := p.1) (b := p.2) hp).2
  intro x hx
  split at h
  · simp at h; subst h; simp [DF.terms] at hx
  · rename_i u us hused
    rw [hused] at hu h
    have hu1 : ∀ x ∈ u.terms, x ∈ DF.termsList ns := fun x hx => hu x (by simp [DF.termsList, hx])
    repeat' split at h
    all_goals simp only [bind_ok, ok_inj] at h
    · subst h; simp [DF.terms, DF.termsList] at hx; exact hu x (by simpa [DF.termsList] using hx)
    · subst h; simp [DF.terms, DF.termsList] at hx; exact hu1 x hx
    · subst h; simp [DF.terms, DF.termsList] at hx; exact hu x (by simpa [DF.termsList] using hx)
    · subst h; exact hu1 x hx
    · subst h; exact hu x (by simpa [DF.terms] using hx)
    · subst h; simp [DF.terms] at hx; exact hu1 x hx
    · obtain ⟨cut, hcut, rfl⟩ := h
      simp [DF.terms] at hx
      rw [termsList_reverse] at hx
      have := takeCut_terms hcut x hx
      rw [termsList_reverse] at this
      exact hu x this

/-! ### the whole pass -/

theorem optHierList_map {ctx : OptCtx} {k ns rs} (h : ctx.optHierList k ns = .ok rs) :
    List.Forall₂ (fun n r => ctx.optHier k n = .ok r) ns rs := by
  induction ns generalizing rs with
  | nil => simp [OptCtx.optHierList] at h; subst h; exact .nil
  | cons n ns ih =>
    simp only [OptCtx.optHierList, bind_ok, ok_inj] at h
    obtain ⟨x, hx, xs, hxs, rfl⟩ := h
    exact .cons hx (ih hxs)

/-- **C10** (hierarchical simplification) -/
theorem C10_optimizeHierarchy_terms (ctx : OptCtx) (k : Nat) (t r : DF) (h : ctx.optHier k t = .ok r) :
    ∀ x ∈ r.terms, x ∈ t.terms := by
  induction t using DF.ind generalizing r with
  | none => simp [OptCtx.optHier] at h; subst h; simp
  | term n => simp [OptCtx.optHier] at h; subst h; simp
  | intc s => simp [OptCtx.optHier] at h; subst h; simp
  | fltc s => simp [OptCtx.optHier] at h; subst h; simp
  | strc s => simp [OptCtx.optHier] at h; subst h; simp
  | ev v w a b => simp [OptCtx.optHier] at h; subst h; simp
  | undef w => simp [OptCtx.optHier] at h; subst h; simp
  | hiz w => simp [OptCtx.optHier] at h; subst h; simp
  | delay n => simp [OptCtx.optHier] at h
  | sys s ns ih =>
    simp only [OptCtx.optHier, bind_ok, ok_inj] at h
    obtain ⟨rs, hrs, rfl⟩ := h
    have := optHierList_map hrs
    intro x hx
    simp only [DF.terms] at hx ⊢
    clear hrs
    induction this with
    | nil => exact hx
    | cons h1 _ ih2 =>
      simp only [DF.termsList, List.mem_append] at hx ⊢
      rcases hx with hx | hx
      · exact .inl (ih _ (by simp) _ h1 x hx)
      · exact .inr (ih2 (fun n hn => ih n (by simp [hn])) hx)
  | branch c t f hc ht hf =>
    simp only [OptCtx.optHier, bind_ok] at h
    obtain ⟨c', h1, t', h2, f', h3, h⟩ := h
    intro x hx
    simp only [DF.terms, List.mem_append]
    split at h
    · simp only [bind_ok, ok_inj] at h
      obtain ⟨b, _, rfl⟩ := h
      cases b
      · exact .inr (hf _ h3 x hx)
      · exact .inl (.inr (ht _ h2 x hx))
    · split at h
      · simp at h; subst h; exact .inl (.inr (ht _ h2 x hx))
      · simp at h; subst h
        simp only [DF.terms, List.mem_append] at hx
        rcases hx with (hx | hx) | hx
        · exact .inl (.inl (hc _ h1 x hx))
        · exact .inl (.inr (ht _ h2 x hx))
        · exact .inr (hf _ h3 x hx)
  | op o ns ih =>
    simp only [OptCtx.optHier, bind_ok] at h
    obtain ⟨rs, hrs, r1, h1, r2, h2, r3, h3, r4, h4, h5⟩ := h
    have := optHierList_map hrs
    intro x hx
    have hx := mergeLandLor_terms h5 x hx
    have hx := mergeStaticNodes_terms h4 x hx
    have hx := mergeIdenticalNodes_terms h3 x hx
    have hx := replaceOperator_terms h2 x hx
    rw [mkOp_terms h1] at hx
    simp only [DF.terms]
    clear hrs h1 h2 h3 h4 h5
    induction this with
    | nil => exact hx
    | cons h1 _ ih2 =>
      simp only [DF.termsList, List.mem_append] at hx ⊢
      rcases hx with hx | hx
      · exact .inl (ih _ (by simp) _ h1 x hx)
      · exact .inr (ih2 (fun n hn => ih n (by simp [hn])) hx)
  | psel v m l hv hm hl =>
    simp only [OptCtx.optHier, bind_ok] at h
    obtain ⟨m', h1, l', h2, v', h3, h⟩ := h
    intro x hx
    have dflt : r = .psel v' m' l' → x ∈ (DF.psel v m l).terms := by
      rintro rfl
      simp only [DF.terms, List.mem_append] at hx ⊢
      rcases hx with (hx | hx) | hx
      · exact .inl (.inl (hv _ h3 x hx))
      · exact .inl (.inr (hm _ h1 x hx))
      · exact .inr (hl _ h2 x hx)
    have hval : (x ∈ v'.terms) → x ∈ (DF.psel v m l).terms := by
      intro hx
      simp only [DF.terms, List.mem_append]
      exact .inl (.inl (hv _ h3 x hx))
    split at h
    · split at h
      · rename_i ns hns
        have := takePart_terms h x hx
        apply hval
        unfold asConcat at hns
        split at hns <;> simp at hns
        subst hns
        exact this
      · split at h
        · simp only [bind_ok] at h
          obtain ⟨w, _, mv, _, h⟩ := h
          split at h
          · simp at h; subst h; exact hval hx
          · simp at h; exact dflt h.symm
        · simp at h; exact dflt h.symm
    · simp at h; exact dflt h.symm
  | ptr v p hv hp =>
    simp only [OptCtx.optHier, bind_ok] at h
    obtain ⟨p', h1, v', h2, h⟩ := h
    intro x hx
    have dflt : r = .ptr v' p' → x ∈ (DF.ptr v p).terms := by
      rintro rfl
      simp only [DF.terms, List.mem_append] at hx ⊢
      rcases hx with hx | hx
      · exact .inl (hv _ h2 x hx)
      · exact .inr (hp _ h1 x hx)
    split at h
    · rename_i ns hns
      split at h
      · have := takePart_terms h x hx
        unfold asConcat at hns
        split at hns <;> simp at hns
        subst hns
        simp only [DF.terms, List.mem_append]
        exact .inl (hv _ h2 x this)
      · simp at h; exact dflt h.symm
    · simp at h; exact dflt h.symm
  | concat ns ih =>
    simp only [OptCtx.optHier, bind_ok] at h
    obtain ⟨rs, hrs, h⟩ := h
    intro x hx
    have hx := mergeConcat_terms h x hx
    simp only [DF.terms]
    clear h
    induction ns generalizing rs with
    | nil => simp [OptCtx.optHierConcat] at hrs; subst hrs; exact hx
    | cons n ns ih2 =>
      have key : ∃ a xs, ctx.optHierConcat k ns = .ok xs ∧ rs = a ++ xs ∧ ∀ x ∈ DF.termsList a, x ∈ n.terms := by
        cases n with
        | concat ms =>
          simp only [OptCtx.optHierConcat, bind_ok, ok_inj] at hrs
          obtain ⟨xs, hxs, rfl⟩ := hrs
          exact ⟨ms, xs, hxs, rfl, fun x hx => hx⟩
        | _ =>
          simp only [OptCtx.optHierConcat, bind_ok, ok_inj] at hrs
          obtain ⟨y, hy, xs, hxs, rfl⟩ := hrs
          refine ⟨[y], xs, hxs, rfl, fun x hx => ih _ (by simp) y (by simpa only [OptCtx.optHier, bind_ok, ok_inj] using hy) x ?_⟩
          simpa [DF.termsList] using hx
      obtain ⟨a, xs, hxs, rfl, ha⟩ := key
      rw [termsList_append, List.mem_append] at hx
      simp only [DF.termsList, List.mem_append]
      rcases hx with hx | hx
      · exact .inl (ha x hx)
      · exact .inr (ih2 (fun n hn => ih n (by simp [hn])) xs hxs hx)

/-- **C10** Every signal of an optimized tree is a signal of the tree, for any number of rounds. -/
theorem C10_optimize_terms (ctx : OptCtx) (k level : Nat) (t r : DF) (h : ctx.optimize k level t = .ok r) :
    ∀ x ∈ r.terms, x ∈ t.terms := by
  induction level generalizing t with
  | zero => simp [OptCtx.optimize] at h; subst h; simp
  | succ n ih =>
    simp only [OptCtx.optimize, bind_ok] at h
    obtain ⟨a, ha, b, hb, h⟩ := h
    intro x hx
    exact C10_optimizeConstant_terms _ _ _ _ ha x (C10_optimizeHierarchy_terms _ _ _ _ hb x (ih _ h x hx))

/-- Non-vacuity: two rounds on `(1 ? a : b) && a` leave `a`. -/
example : let a : ScopeChain := [⟨['a'], .signal, none⟩]
    let b : ScopeChain := [⟨['b'], .signal, none⟩]
    (OptCtx.mk [] [] 32 (fun _ => none)).optimize 5 2
      (.op .land [.branch (.intc ['1']) (.term a) (.term b), .term a]) = .ok (.term a) := by decide

end Pyv
