import Verif.Props.NbNorm
/-
  C58: conversions in a module whose signals all belong to the module itself.
-/
namespace Pyv

/-- The signal of the module `mod` with a name. -/
def resOf (terms : Dict ScopeChain Term) (mod : ScopeChain) (n : Str) : Option ScopeChain :=
  if terms.has (mod ++ [⟨n, .signal, none⟩]) then some (mod ++ [⟨n, .signal, none⟩]) else none

/-- The lookups of `makeDFTree` anywhere in the module. -/
def BV.flatE (s : BV) (mod : ScopeChain) : ExprEnv where
  find n := .ok (resOf s.terms mod n)
  hier _ _ := .error .unmodelled
  dims := s.hasDims
  times t := match t with
    | .intc l => do let v ← s.opt (.intc l); v.intAttr
    | _ => .error .unmodelled

/-- The lookups of `resolveBlockingAssign` without blocking assignments. -/
def BV.flatR (s : BV) : ResEnv where
  look n := .ok (.term n)
  dims := s.hasDims
  elems _ := .ok []

/-- The conversions of conditions and right-hand sides anywhere in the module. -/
def BV.flatA (s : BV) (mod : ScopeChain) : TEnv where
  rhs e := do
    let t ← (s.flatE mod).makeDF e
    let r ← s.flatR.resolve t
    s.reo r
  cond e := do
    let t ← (s.flatE mod).makeDF e
    s.flatR.resolve t
  reo := s.reo

theorem flatA_norm (s : BV) (mod : ScopeChain) : (s.flatA mod).Norm where
  rhs := by
    intro e t h
    simp only [BV.flatA, bind_ok] at h
    obtain ⟨_, _, _, _, h⟩ := h
    exact reorder_nf h
  cond := by
    intro e t h hc
    simp only [BV.flatA, bind_ok] at h
    obtain ⟨u, hu, h⟩ := h
    have := makeDF_nf e u hc hu
    have e2 := resolve_nf (R := s.flatR) (by intro n r h; simpa [BV.flatR] using h.symm)
      (by intro n r h; simpa [BV.flatR] using h.symm) u _ (nf_true_of_false this) h
    subst e2
    exact this
  reo := fun t r h hn => reorder_nf_id hn _ _ h

/-- The valuation takes the arrays of the module for arrays. -/
def BV.ArraysAgree (s : BV) (ρ : Env) : Prop :=
  ArraysOK ρ ∧ ∀ c t, s.terms.get? c = some t → (t.dims.isSome = true ↔ (ρ.arr c).isSome = true)

theorem hasDims_agree {s : BV} {ρ : Env} (h : s.ArraysAgree ρ) {c b} (hb : s.hasDims c = .ok b) :
    b = true ↔ (ρ.arr c).isSome = true := by
  simp only [BV.hasDims] at hb
  split at hb
  · cases hb
  · rename_i t ht
    cases hb
    exact h.2 c t ht

theorem opt_intc {s : BV} {ρ : Env} {l : Str} {r : DF} {n : Int} {v} (h : s.opt (.intc l) = .ok r) (hn : r.intAttr = .ok n)
    (hv : sem ρ (.intc l) = some v) : v.1 = n := by
  simp only [sem] at hv
  split at hv
  · cases hv
  · rename_i hx
    have hx' : hasXZ l = false := by simpa [hasXZ] using hx
    split at hv
    · rename_i a w ha hw
      simp only [Option.some.injEq] at hv
      subst hv
      cases hf : s.fuel with
      | zero => simp [BV.opt, OptCtx.optimize, hf, OptCtx.optConst, bind_ok] at h
      | succ k =>
        simp only [BV.opt, OptCtx.optimize, hf, OptCtx.optConst, hx', Bool.false_eq_true, if_false, ha, hw, ok_bind, DF.evi,
          OptCtx.optHier, ok_inj] at h
        subst h
        simpa [DF.intAttr, DF.valueAttr, PyVal.toInt, ok_bind] using hn
    · cases hv

theorem flatE_agrees {s : BV} {ρ : Env} (h : s.ArraysAgree ρ) (mod : ScopeChain) : (s.flatE mod).Agrees ρ (resOf s.terms mod) := by
  refine ⟨?_, ?_, ?_⟩
  · intro n c hc
    simpa [BV.flatE] using hc
  · intro c b hb
    exact hasDims_agree h hb
  · intro t n v hn hv
    simp only [BV.flatE] at hn
    split at hn
    · simp only [bind_ok] at hn
      obtain ⟨r, hr, hn⟩ := hn
      exact opt_intc hr hn hv
    · cases hn

theorem flatR_agrees {s : BV} {ρ : Env} (h : s.ArraysAgree ρ) : s.flatR.Agrees ρ ρ := by
  refine ⟨?_, ?_, fun _ => rfl, ?_, rfl⟩
  · intro n u v hu hv
    simp only [BV.flatR, ok_inj] at hu
    subst hu
    simpa [sem] using hv
  · intro c b hb
    exact hasDims_agree h hb
  · intro n bs _ hb
    simpa [BV.flatR] using hb.symm

theorem flatA_sound {s : BV} {ρ : Env} (h : s.ArraysAgree ρ) (mod : ScopeChain) :
    (s.flatA mod).Sound ρ (resOf s.terms mod) := by
  have hE := flatE_agrees h mod
  have hR := flatR_agrees h
  have hc : ∀ e t v, (s.flatA mod).cond e = .ok t → exVal ρ (resOf s.terms mod) e = some v → sem ρ t = some v := by
    intro e t v ht hv
    simp only [BV.flatA, bind_ok] at ht
    obtain ⟨u, hu, ht⟩ := ht
    exact C57_substitution_value ρ ρ h.1 h.1 _ hR u t v ht (C57_expression_value ρ h.1 _ _ hE e u v hu hv)
  refine ⟨?_, hc⟩
  intro e t v ht hv
  simp only [BV.flatA, bind_ok] at ht
  obtain ⟨u, hu, w, hw, ht⟩ := ht
  exact C14_reorder_value ρ h.1 _ _ _ ht v (hc e w v (by simp [BV.flatA, hu, ok_bind, hw]) hv)

/-- Nothing that the conversions look at differs. -/
structure BV.Same (s s' : BV) : Prop where
  terms : s'.terms = s.terms
  octx : s'.octx = s.octx
  fuel : s'.fuel = s.fuel
  noreorder : s'.noreorder = s.noreorder

theorem BV.Same.refl (s : BV) : s.Same s := ⟨rfl, rfl, rfl, rfl⟩

theorem BV.Same.trans {s s' s'' : BV} (h : s.Same s') (g : s'.Same s'') : s.Same s'' :=
  ⟨g.terms.trans h.terms, g.octx.trans h.octx, g.fuel.trans h.fuel, g.noreorder.trans h.noreorder⟩

theorem flatA_same {s s' : BV} (h : s.Same s') (mod : ScopeChain) : s'.flatA mod = s.flatA mod := by
  have h1 : s'.hasDims = s.hasDims := by funext n; simp only [BV.hasDims, h.terms]
  have h2 : s'.opt = s.opt := by funext n; simp only [BV.opt, h.octx, h.fuel]
  have h3 : s'.reo = s.reo := by funext n; simp only [BV.reo, h.fuel]
  simp only [BV.flatA, BV.flatE, BV.flatR, h1, h2, h3, h.terms]

end Pyv
