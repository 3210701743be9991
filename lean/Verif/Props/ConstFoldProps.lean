import Verif.Props.OperatorProps
import Verif.Util
/-
  C07, C08, C10 (first part): constant folding.
-/
namespace Pyv

/-! ### Unfolding lemmas -/

theorem DF.mkOp_ok {o : Op} {ns : List DF} {r : DF} (h : DF.mkOp o ns = .ok r) : r = .op o ns ∧ DF.none ∉ ns := by
  unfold DF.mkOp at h
  split at h
  · simp at h
  · rename_i hn; simp at h; exact ⟨h.symm, hn⟩

theorem evalOperator_isEv {o ns r} (h : evalOperator o ns = .ok r) : ∃ v w, r = .ev v (some w) false false := by
  unfold evalOperator at h
  simp only [bind_ok] at h
  obtain ⟨w, _, vs, _, v, _, h⟩ := h
  simp at h; exact ⟨v, w, h.symm⟩

theorem evalConcatAux_isEv {ctx : OptCtx} {ns a s r} (h : ctx.evalConcatAux a s ns = .ok r) :
    ∃ v w, r = .evi v (some w) := by
  induction ns generalizing a s with
  | nil => simp [OptCtx.evalConcatAux] at h; exact ⟨_, _, h.symm⟩
  | cons n ns ih =>
    simp only [OptCtx.evalConcatAux, bind_ok] at h
    obtain ⟨_, _, _, _, h⟩ := h
    exact ih h

theorem evalPartselect_isEv {v m l r} (h : evalPartselect v m l = .ok r) : ∃ x w, r = .evi x (some w) := by
  unfold evalPartselect at h
  simp only [bind_ok] at h
  obtain ⟨mv, _, lv, _, vv, _, p, _, h⟩ := h
  split at h
  · simp at h
  · simp at h; exact ⟨_, _, h.symm⟩

/-- Folding a signal gives the signal itself or a constant. -/
theorem optConst_term {ctx : OptCtx} {k n r} (h : ctx.optConst (k + 1) (.term n) = .ok r) :
    (r = .term n ∧ ctx.consts.get? n = Option.none) ∨
    (∃ v w w' a b, r = .ev v w' false false ∧ ctx.consts.get? n = some (.ev v w a b)) := by
  simp only [OptCtx.optConst] at h
  split at h
  · rename_i hn; simp at h; exact .inl ⟨h.symm, hn⟩
  · rename_i c hc
    rw [bind_ok] at h
    obtain ⟨tm, _, h⟩ := h
    split at h
    · rename_i v w a b
      right
      split at h
      · rw [bind_ok] at h
        obtain ⟨m, _, h⟩ := h
        rw [bind_ok] at h
        obtain ⟨l, _, h⟩ := h
        split at h
        · rw [bind_ok] at h
          obtain ⟨mv, _, h⟩ := h
          rw [bind_ok] at h
          obtain ⟨lv, _, h⟩ := h
          simp at h
          exact ⟨v, w, _, a, b, h.symm, hc⟩
        · simp at h; exact ⟨v, w, _, a, b, h.symm, hc⟩
      · simp at h; exact ⟨v, w, _, a, b, h.symm, hc⟩
    · simp at h

/-! ### C08 -/

/-- More recursion depth does not change a successful result. -/
theorem optConst_mono {ctx : OptCtx} {k t r} (h : ctx.optConst k t = .ok r) : ctx.optConst (k + 1) t = .ok r := by
  induction k generalizing t r with
  | zero => simp [OptCtx.optConst] at h
  | succ k ih =>
    have ihL : ∀ {ns rs}, List.mapM (ctx.optConst k) ns = .ok rs → List.mapM (ctx.optConst (k + 1)) ns = .ok rs := by
      intro ns rs hm
      rw [mapM_ok] at hm ⊢
      exact forall₂_imp_mem hm (fun _ _ _ hab => ih hab)
    unfold OptCtx.optConst at h ⊢
    cases t with
    | none => exact h
    | intc s => exact h
    | fltc s => exact h
    | strc s => exact h
    | ev => exact h
    | undef => exact h
    | hiz => exact h
    | delay => simp at h
    | branch c a b =>
      simp only [bind_ok] at h ⊢
      obtain ⟨c', hc, a', ha, b', hb, h⟩ := h
      exact ⟨c', ih hc, a', ih ha, b', ih hb, h⟩
    | op o ns =>
      simp only [bind_ok] at h ⊢
      obtain ⟨rs, hrs, h⟩ := h
      exact ⟨rs, ihL hrs, h⟩
    | concat ns =>
      simp only [bind_ok] at h ⊢
      obtain ⟨rs, hrs, h⟩ := h
      exact ⟨rs, ihL hrs, h⟩
    | sys s ns =>
      simp only [bind_ok] at h ⊢
      obtain ⟨rs, hrs, h⟩ := h
      exact ⟨rs, ihL hrs, h⟩
    | psel v m l =>
      simp only [bind_ok] at h ⊢
      obtain ⟨c', hc, a', ha, b', hb, h⟩ := h
      exact ⟨c', ih hc, a', ih ha, b', ih hb, h⟩
    | ptr v p =>
      cases v with
      | term n =>
        simp only [bind_ok] at h ⊢
        obtain ⟨tm, htm, v', hv, p', hp, h⟩ := h
        exact ⟨tm, htm, v', ih hv, p', ih hp, h⟩
      | _ => exact h
    | term n =>
      simp only at h ⊢
      split at h
      · exact h
      · simp only [bind_ok] at h ⊢
        obtain ⟨tm, htm, h⟩ := h
        refine ⟨tm, htm, ?_⟩
        split at h
        · split at h
          · rename_i hb
            simp only [bind_ok] at h
            obtain ⟨m, hm, l, hl, h⟩ := h
            rw [if_pos hb]
            simp only [bind_ok]
            exact ⟨m, ih hm, l, ih hl, h⟩
          · rename_i hb
            rw [if_neg hb]; exact h
        · simp at h

theorem optConst_ev {ctx : OptCtx} {k : Nat} {v w a b} : ctx.optConst (k + 1) (.ev v w a b) = .ok (.ev v w a b) := by
  simp [OptCtx.optConst]

/-- **C08** Constant folding is idempotent: folding a folded tree again returns it unchanged. -/
theorem C08_optimizeConstant_idempotent (ctx : OptCtx) (k : Nat) (t r : DF) (h : ctx.optConst k t = .ok r) :
    ctx.optConst k r = .ok r := by
  induction k generalizing t r with
  | zero => simp [OptCtx.optConst] at h
  | succ k ih =>
    have ihL : ∀ {ns rs}, List.mapM (ctx.optConst k) ns = .ok rs → List.mapM (ctx.optConst k) rs = .ok rs := by
      intro ns rs hm
      rw [mapM_ok] at hm ⊢
      induction hm with
      | nil => exact .nil
      | cons h1 _ ih2 => exact .cons (ih _ _ h1) ih2
    have h0 := h
    unfold OptCtx.optConst at h
    cases t with
    | none => simp at h; subst h; simp [OptCtx.optConst]
    | ev => simp at h; subst h; simp [OptCtx.optConst]
    | undef => simp at h; subst h; simp [OptCtx.optConst]
    | hiz => simp at h; subst h; simp [OptCtx.optConst]
    | fltc s => simp at h; subst h; simp [OptCtx.optConst]
    | strc s => simp at h; subst h; simp [OptCtx.optConst]
    | delay => simp at h
    | intc s =>
      simp only at h
      split at h
      · simp only [bind_ok] at h
        obtain ⟨w, _, h⟩ := h
        simp at h; subst h; simp [OptCtx.optConst]
      · simp only [bind_ok] at h
        obtain ⟨v, _, w, _, h⟩ := h
        simp at h; subst h; simp [OptCtx.optConst]
    | branch c a b =>
      simp only [bind_ok] at h
      obtain ⟨c', hc, a', ha, b', hb, h⟩ := h
      split at h
      · rw [bind_ok] at h
        obtain ⟨x, _, h⟩ := h
        simp at h; subst h
        cases x
        · exact optConst_mono (ih _ _ hb)
        · exact optConst_mono (ih _ _ ha)
      · rename_i hne
        simp at h; subst h
        unfold OptCtx.optConst
        simp only [ih _ _ hc, ih _ _ ha, ih _ _ hb, bind_ok]
        exact ⟨c', rfl, a', rfl, b', rfl, by simp [hne]⟩
    | op o ns =>
      simp only [bind_ok] at h
      obtain ⟨rs, hrs, h⟩ := h
      split at h
      · obtain ⟨v, w, rfl⟩ := evalOperator_isEv h; exact optConst_ev
      · rename_i hne
        obtain ⟨rfl, hnn⟩ := DF.mkOp_ok h
        unfold OptCtx.optConst
        simp only [bind_ok]
        exact ⟨rs, ihL hrs, by rw [if_neg hne]; exact h⟩
    | concat ns =>
      simp only [bind_ok] at h
      obtain ⟨rs, hrs, h⟩ := h
      split at h
      · obtain ⟨v, w, rfl⟩ := evalConcatAux_isEv h; exact optConst_ev
      · rename_i hne
        simp at h; subst h
        unfold OptCtx.optConst
        simp only [bind_ok]
        exact ⟨rs, ihL hrs, by rw [if_neg hne]⟩
    | sys s ns =>
      simp only [bind_ok] at h
      obtain ⟨rs, hrs, h⟩ := h
      simp at h; subst h
      unfold OptCtx.optConst
      simp only [bind_ok]
      exact ⟨rs, ihL hrs, rfl⟩
    | psel v m l =>
      simp only [bind_ok] at h
      obtain ⟨c', hc, a', ha, b', hb, h⟩ := h
      split at h
      · obtain ⟨x, w, rfl⟩ := evalPartselect_isEv h; exact optConst_ev
      · rename_i hne
        simp at h; subst h
        unfold OptCtx.optConst
        simp only [bind_ok]
        exact ⟨c', ih _ _ hc, a', ih _ _ ha, b', ih _ _ hb, by rw [if_neg hne]⟩
    | term n =>
      rcases optConst_term h0 with ⟨rfl, _⟩ | ⟨v, w, w', a, b, rfl, _⟩
      · exact h0
      · exact optConst_ev
    | ptr v p =>
      cases v with
      | term n =>
        simp only [bind_ok] at h
        obtain ⟨tm, htm, v', hv, p', hp, h⟩ := h
        have hr : r = .ptr v' p' ∧ (tm.dims = Option.none → ¬ (v'.isEv = true ∧ p'.isEv = true)) := by
          split at h
          · rename_i d hd; simp at h; exact ⟨h.symm, by simp [hd]⟩
          · split at h
            · simp at h
            · rename_i hne; simp at h; exact ⟨h.symm, fun _ => hne⟩
        obtain ⟨rfl, hne⟩ := hr
        cases k with
        | zero => simp [OptCtx.optConst] at hv
        | succ k =>
          rcases optConst_term hv with ⟨rfl, _⟩ | ⟨v, w, w', a, b, rfl, _⟩
          · unfold OptCtx.optConst
            simp only [bind_ok]
            refine ⟨tm, htm, .term n, hv, p', ih _ _ hp, ?_⟩
            split
            · rfl
            · rename_i hd; rw [if_neg (hne hd)]
          · unfold OptCtx.optConst; rfl
      | _ => simp at h; subst h; unfold OptCtx.optConst; rfl

/-- Non-vacuity: `(1 + 2) * x` folds to `3 * x`. -/
example : ∃ x : ScopeChain, (OptCtx.mk [] [] 32 (fun _ => none)).optConst 5
      (.op .times [.op .plus [.intc ['1'], .intc ['2']], .term x]) =
    .ok (.op .times [.evi 3 (some 32), .term x]) :=
  ⟨[⟨['x'], .signal, none⟩], by decide⟩

/-! ### C10 for constant folding -/

theorem terms_of_isEv {r : DF} (h : r.isEv = true) : r.terms = [] := by
  cases r <;> simp_all [DF.isEv, DF.terms]

/-- **C10** (constant folding) Every signal of the folded tree is a signal of the tree. -/
theorem C10_optimizeConstant_terms (ctx : OptCtx) (k : Nat) (t r : DF) (h : ctx.optConst k t = .ok r) :
    ∀ x ∈ r.terms, x ∈ t.terms := by
  induction k generalizing t r with
  | zero => simp [OptCtx.optConst] at h
  | succ k ih =>
    have ihL : ∀ {ns rs}, List.mapM (ctx.optConst k) ns = .ok rs → ∀ x ∈ DF.termsList rs, x ∈ DF.termsList ns := by
      intro ns rs hm x hx
      rw [mapM_ok] at hm
      induction hm with
      | nil => exact hx
      | cons h1 _ ih2 =>
        simp only [DF.termsList, List.mem_append] at hx ⊢
        rcases hx with hx | hx
        · exact .inl (ih _ _ h1 x hx)
        · exact .inr (ih2 hx)
    have h0 := h
    unfold OptCtx.optConst at h
    cases t with
    | none => simp at h; subst h; simp
    | ev => simp at h; subst h; simp
    | undef => simp at h; subst h; simp
    | hiz => simp at h; subst h; simp
    | fltc s => simp at h; subst h; simp [DF.terms]
    | strc s => simp at h; subst h; simp [DF.terms]
    | delay => simp at h
    | intc s =>
      simp only at h
      split at h
      · simp only [bind_ok] at h
        obtain ⟨w, _, h⟩ := h
        simp at h; subst h; simp [DF.terms]
      · simp only [bind_ok] at h
        obtain ⟨v, _, w, _, h⟩ := h
        simp at h; subst h; simp [DF.terms]
    | branch c a b =>
      simp only [bind_ok] at h
      obtain ⟨c', hc, a', ha, b', hb, h⟩ := h
      intro x hx
      simp only [DF.terms, List.mem_append]
      split at h
      · rw [bind_ok] at h
        obtain ⟨y, _, h⟩ := h
        simp at h; subst h
        cases y
        · exact .inr (ih _ _ hb x hx)
        · exact .inl (.inr (ih _ _ ha x hx))
      · simp at h; subst h
        simp only [DF.terms, List.mem_append] at hx
        rcases hx with (hx | hx) | hx
        · exact .inl (.inl (ih _ _ hc x hx))
        · exact .inl (.inr (ih _ _ ha x hx))
        · exact .inr (ih _ _ hb x hx)
    | op o ns =>
      simp only [bind_ok] at h
      obtain ⟨rs, hrs, h⟩ := h
      split at h
      · obtain ⟨v, w, rfl⟩ := evalOperator_isEv h; simp [DF.terms]
      · obtain ⟨rfl, _⟩ := DF.mkOp_ok h
        simpa [DF.terms] using ihL hrs
    | concat ns =>
      simp only [bind_ok] at h
      obtain ⟨rs, hrs, h⟩ := h
      split at h
      · obtain ⟨v, w, rfl⟩ := evalConcatAux_isEv h; simp [DF.terms]
      · simp at h; subst h
        simpa [DF.terms] using ihL hrs
    | sys s ns =>
      simp only [bind_ok] at h
      obtain ⟨rs, hrs, h⟩ := h
      simp at h; subst h
      simpa [DF.terms] using ihL hrs
    | psel v m l =>
      simp only [bind_ok] at h
      obtain ⟨c', hc, a', ha, b', hb, h⟩ := h
      split at h
      · obtain ⟨x, w, rfl⟩ := evalPartselect_isEv h; simp [DF.terms]
      · simp at h; subst h
        intro x hx
        simp only [DF.terms, List.mem_append] at hx ⊢
        rcases hx with (hx | hx) | hx
        · exact .inl (.inl (ih _ _ hc x hx))
        · exact .inl (.inr (ih _ _ ha x hx))
        · exact .inr (ih _ _ hb x hx)
    | term n =>
      rcases optConst_term h0 with ⟨rfl, _⟩ | ⟨v, w, w', a, b, rfl, _⟩ <;> simp [DF.terms]
    | ptr v p =>
      cases v with
      | term n =>
        simp only [bind_ok] at h
        obtain ⟨tm, htm, v', hv, p', hp, h⟩ := h
        have hr : r = .ptr v' p' := by
          split at h
          · simp at h; exact h.symm
          · split at h
            · simp at h
            · simp at h; exact h.symm
        subst hr
        intro x hx
        simp only [DF.terms, List.mem_append] at hx ⊢
        rcases hx with hx | hx
        · left; exact ih _ _ hv x hx
        · right; exact ih _ _ hp x hx
      | _ => simp at h; subst h; simp

end Pyv
