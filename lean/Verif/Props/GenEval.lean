import Verif.Props.GenSpec
import Verif.Props.NbNorm
import Verif.Props.ConstFoldProps
import Verif.Props.ResolveProps
/-
  C85: constant expressions are evaluated to their values.
-/
namespace Pyv

/-- A tree whose constant folding can only give the integer `v`. -/
def FoldsTo (t : DF) (v : Int) : Prop :=
  t.isBranch = false ∧ ∀ (ctx : OptCtx) k r, ctx.optConst k t = .ok r → ∃ w, r = .evi v (some w)

theorem FoldsTo.ev (v : Int) (w : Int) : FoldsTo (.evi v (some w)) v := by
  refine ⟨rfl, ?_⟩
  intro ctx k r h
  cases k with
  | zero => simp [OptCtx.optConst] at h
  | succ k => simp only [OptCtx.optConst, ok_inj] at h; exact ⟨w, h.symm⟩

theorem FoldsTo.lit {s : Str} {v : Int} (hx : hasXZ s = false) (hv : intConstEval s = .ok v) : FoldsTo (.intc s) v := by
  refine ⟨rfl, ?_⟩
  intro ctx k r h
  cases k with
  | zero => simp [OptCtx.optConst] at h
  | succ k =>
    simp only [OptCtx.optConst, hx, hv, Bool.false_eq_true, if_false] at h
    obtain ⟨_, h0, h⟩ := bind_ok.mp h
    rw [ok_inj] at h0; subst h0
    obtain ⟨w, _, h⟩ := bind_ok.mp h
    rw [ok_inj] at h
    exact ⟨w, h.symm⟩

theorem evInts_evi {rs : List DF} {vs us : List Int} (h : List.Forall₂ (fun r v => ∃ w, r = DF.evi v (some w)) rs vs)
    (hu : evInts rs = .ok us) : us = vs := by
  induction h generalizing us with
  | nil => simp [evInts] at hu; exact hu
  | cons hx _ ih =>
    obtain ⟨w, rfl⟩ := hx
    simp only [evInts] at hu
    obtain ⟨a, ha, hu⟩ := bind_ok.mp hu
    obtain ⟨as, has, hu⟩ := bind_ok.mp hu
    rw [ok_inj] at hu; subst hu
    have ha' : (Except.ok _ : Py Int) = .ok a := ha
    rw [ok_inj] at ha'
    rw [← ha', ih has]

theorem FoldsTo.op {ts : List DF} {vs : List Int} (o : Op) {v : Int} (h : List.Forall₂ FoldsTo ts vs) (hf : FoldOK o vs)
    (hv : ∀ w, opSem o vs w = some v) : FoldsTo (.op o ts) v := by
  refine ⟨rfl, ?_⟩
  intro ctx k r hr
  cases k with
  | zero => simp [OptCtx.optConst] at hr
  | succ k =>
    simp only [OptCtx.optConst] at hr
    obtain ⟨rs, h1, hr⟩ := bind_ok.mp hr
    have key : ∀ (ts : List DF) (vs : List Int) rs, List.Forall₂ FoldsTo ts vs → ts.mapM (ctx.optConst k) = .ok rs →
        List.Forall₂ (fun r v => ∃ w, r = DF.evi v (some w)) rs vs := by
      intro ts vs rs h
      induction h generalizing rs with
      | nil => intro h; simp [List.mapM_nil, pure, Except.pure] at h; subst h; exact .nil
      | cons hx _ ih =>
        intro h
        rw [List.mapM_cons] at h
        obtain ⟨x, hx1, h⟩ := bind_ok.mp h
        obtain ⟨xs, hx2, h⟩ := bind_ok.mp h
        simp only [pure, Except.pure, Except.ok.injEq] at h; subst h
        exact .cons (hx.2 ctx k x hx1) (ih _ hx2)
    have hk := key ts vs rs h h1
    have ha : rs.all DF.isEv = true := by
      rw [List.all_eq_true]
      intro x hx
      obtain ⟨y, _, w, rfl⟩ := forall₂_mem_left hk x hx
      rfl
    rw [if_pos ha] at hr
    unfold evalOperator at hr
    obtain ⟨w, _, hr⟩ := bind_ok.mp hr
    obtain ⟨us, hu, hr⟩ := bind_ok.mp hr
    have e : us = vs := evInts_evi hk hu
    subst e
    rw [C06_fold_operator_partial o us w v hf (hv _)] at hr
    obtain ⟨x, hx, hr⟩ := bind_ok.mp hr
    rw [ok_inj] at hx hr
    subst hx
    exact ⟨w, hr.symm⟩

/-- The conversion of a constant expression gives a tree that folds to its value, when the names do. -/
theorem constDF_folds {σ : GEnv} {look : Str → Py DF} {opt : DF → Py DF}
    (hl : ∀ n v t, σ.get n = some v → look n = .ok t → FoldsTo t v) {e : Ex} {v : Int} (he : ConstVal σ e v) :
    ∀ {t}, constDF look opt e = .ok t → FoldsTo t v := by
  induction he with
  | name h => intro t ht; simp only [constDF] at ht; exact hl _ _ _ h ht
  | lit hx hv => intro t ht; simp only [constDF, ok_inj] at ht; subst ht; exact .lit hx hv
  | un he hf hv ih =>
    intro t ht
    simp only [constDF] at ht
    obtain ⟨a, ha, ht⟩ := bind_ok.mp ht
    have h1 := ih ha
    rw [insertOpList, hoistList_plain (by intro n hn; simp only [List.mem_singleton] at hn; subst hn; exact h1.1)] at ht
    rw [(DF.mkOp_ok ht).1]
    exact .op _ (.cons h1 .nil) hf hv
  | bin ha hb hf hv iha ihb =>
    intro t ht
    simp only [constDF] at ht
    obtain ⟨a, ha, ht⟩ := bind_ok.mp ht
    obtain ⟨b, hb, ht⟩ := bind_ok.mp ht
    have h1 := iha ha
    have h2 := ihb hb
    rw [insertOpList, hoistList_plain (by
      intro n hn
      simp only [List.mem_cons, List.not_mem_nil, or_false] at hn
      rcases hn with rfl | rfl
      · exact h1.1
      · exact h2.1)] at ht
    rw [(DF.mkOp_ok ht).1]
    exact .op _ (.cons h1 (.cons h2 .nil)) hf hv

theorem FoldsTo.optimize {t : DF} {v : Int} (h : FoldsTo t v) {ctx : OptCtx} {fuel : Nat} {r : DF}
    (hr : ctx.optimize fuel 2 t = .ok r) : ∃ w, r = .evi v (some w) := by
  simp only [OptCtx.optimize] at hr
  obtain ⟨a, ha, hr⟩ := bind_ok.mp hr
  obtain ⟨w, rfl⟩ := h.2 _ _ _ ha
  obtain ⟨b, hb, hr⟩ := bind_ok.mp hr
  simp only [OptCtx.optHier, ok_inj] at hb
  subst hb
  obtain ⟨a, ha, hr⟩ := bind_ok.mp hr
  obtain ⟨w, rfl⟩ := (FoldsTo.ev v w).2 _ _ _ ha
  obtain ⟨b, hb, hr⟩ := bind_ok.mp hr
  simp only [OptCtx.optHier, ok_inj] at hb
  subst hb
  rw [ok_inj] at hr
  exact ⟨w, hr.symm⟩

end Pyv
