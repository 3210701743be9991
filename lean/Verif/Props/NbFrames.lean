import Verif.Props.NbFlat
/-
  C58: the frames of an always block with nonblocking assignments, and what the visitor computes in them.
-/
namespace Pyv

/-- An assignment to a whole signal. -/
def Bind.whole (b : Bind) : Prop := b.msb = .none ∧ b.lsb = .none ∧ b.ptr = .none

/-- The events of the always block, and what is required of the events noted with the assignments to the signal;
`has`: the signal has an assignment. -/
structure Blk where
  info : AlwaysInfo
  ok : Option AlwaysInfo → Prop
  has : Prop

/-- A frame of an always block without blocking assignments, where `x` is assigned as a whole or not at all. -/
structure FrameOK (x : ScopeChain) (ai : Blk) (f : Frame) : Prop where
  always : f.isAlways = true
  notModule : f.isModule = false
  notF : f.isFcall = false
  notT : f.isTcall = false
  blocking : f.blocking = []
  nodup : f.nonblocking.Nodup
  recd : f.nonblocking.get? x = none ∨ ∃ b, f.nonblocking.get? x = some [b] ∧ b.whole ∧ ai.ok b.always

/-- The frames from an always block of the module `mod` down to a scope, with the path of conditions. -/
inductive Chain (fr : Dict ScopeChain Frame) (mod x : ScopeChain) (ai : Blk) : ScopeChain → ExPath → Prop
  | base (l : ScopeLabel) (f m : Frame) : fr.get? (mod ++ [l]) = some f → FrameOK x ai f → f.always = some ai.info → f.cond = none →
      f.previous = mod → l.type ≠ .if_ ∧ l.type ≠ .module → mod ≠ [] → fr.get? mod = some m → m.isModule = true → m.isAlways = false →
      m.cond = none → Chain fr mod x ai (mod ++ [l]) []
  | block (c : ScopeChain) (p : ExPath) (l : ScopeLabel) (f : Frame) : Chain fr mod x ai c p → fr.get? (c ++ [l]) = some f →
      FrameOK x ai f → f.always = none → f.cond = none → f.previous = c → l.type ≠ .if_ ∧ l.type ≠ .module → Chain fr mod x ai (c ++ [l]) p
  | cond (c : ScopeChain) (p : ExPath) (l : ScopeLabel) (f : Frame) (e : Ex) : Chain fr mod x ai c p →
      fr.get? (c ++ [l]) = some f → FrameOK x ai f → f.always = none → f.cond = some e → e.flat = true → f.previous = c →
      l.type = .if_ → Chain fr mod x ai (c ++ [l]) (p ++ [(e, !f.isElse)])

/-- All signals belong to modules (not to blocks inside of the module), and none is a genvar. -/
def FlatTerms (terms : Dict ScopeChain Term) (mod : ScopeChain) : Prop :=
  (∀ ls l n, l.type ≠ .module → terms.has (mod ++ (ls ++ [l]) ++ [⟨n, .signal, none⟩]) = false) ∧
  ∀ n t, terms.get? n = some t → t.types.contains .genvar = false

section
variable {s : BV} {mod x : ScopeChain} {ai : Blk} {c : ScopeChain} {p : ExPath}

theorem Chain.inMod {fr} (h : Chain fr mod x ai c p) : ∃ ls, ls ≠ [] ∧ c = mod ++ ls := by
  induction h with
  | base l => exact ⟨[l], by simp, rfl⟩
  | block c p l f _ _ _ _ _ _ _ ih => obtain ⟨ls, h, rfl⟩ := ih; exact ⟨ls ++ [l], by simp, by simp⟩
  | cond c p l f e _ _ _ _ _ _ _ _ ih => obtain ⟨ls, h, rfl⟩ := ih; exact ⟨ls ++ [l], by simp, by simp⟩

theorem Chain.ne {fr} (h : Chain fr mod x ai c p) : c ≠ [] := by
  obtain ⟨ls, hl, rfl⟩ := h.inMod
  intro e
  exact hl (List.append_eq_nil_iff.mp e).2

theorem Chain.frame {fr} (h : Chain fr mod x ai c p) : ∃ f, fr.get? c = some f ∧ FrameOK x ai f := by
  cases h with
  | base l f m h1 h2 => exact ⟨f, h1, h2⟩
  | block c p l f _ h1 h2 => exact ⟨f, h1, h2⟩
  | cond c p l f e _ h1 h2 => exact ⟨f, h1, h2⟩

theorem frame_ok {c f} (h : s.frames.get? c = some f) : s.frame c = .ok f := by simp [BV.frame, Dict.get, h]

theorem frame_get {c f} (h : s.frame c = .ok f) : s.frames.get? c = some f := by
  simp only [BV.frame, Dict.get] at h
  split at h <;> simp_all

theorem search_chain (h : Chain s.frames mod x ai c p) (hf : FlatTerms s.terms mod) (n : Str) :
    s.searchTerminal n c = .ok (resOf s.terms mod n) := by
  have hmod : ∀ m, mod ≠ [] → s.frames.get? mod = some m → m.isModule = true → s.searchTerminal n mod = .ok (resOf s.terms mod n) := by
    intro m h1 h2 h3
    rw [BV.searchTerminal, dif_neg h1]
    split
    · rename_i h4; simp [resOf, h4]
    · rename_i h4; simp [frame_ok h2, ok_bind, h3, resOf, h4]
  induction h with
  | base l f m h1 h2 _ _ _ hl h3 h4 h5 =>
    rw [BV.searchTerminal, dif_neg (by simp), show s.terms.has (mod ++ [l] ++ [⟨n, .signal, none⟩]) = false from hf.1 [] l n hl.2, frame_ok h1, ok_bind]
    simp only [Bool.false_eq_true, if_false, h2.notModule, List.dropLast_concat]
    exact hmod m h3 h4 h5
  | block c p l f hc h1 h2 _ _ _ hl ih =>
    obtain ⟨ls, hls, rfl⟩ := hc.inMod
    rw [BV.searchTerminal, dif_neg (by simp), List.append_assoc mod ls [l], hf.1 ls l n hl.2, ← List.append_assoc, frame_ok h1, ok_bind]
    simp only [Bool.false_eq_true, if_false, h2.notModule, List.dropLast_concat]
    exact ih
  | cond c p l f e hc h1 h2 _ _ _ _ hl ih =>
    obtain ⟨ls, hls, rfl⟩ := hc.inMod
    rw [BV.searchTerminal, dif_neg (by simp), List.append_assoc mod ls [l], hf.1 ls l n (by rw [hl]; decide), ← List.append_assoc, frame_ok h1, ok_bind]
    simp only [Bool.false_eq_true, if_false, h2.notModule, List.dropLast_concat]
    exact ih

theorem getBlocking_chain (h : Chain s.frames mod x ai c p) (n : ScopeChain) : ∀ k bs, s.getBlockingAssign n k c = .ok bs → bs = [] := by
  have hup : ∀ f q, f.blocking = [] → f.isAlways = true → f.previous = q → s.frames.get? c = some f →
      (∀ k bs, s.getBlockingAssign n k q = .ok bs → bs = []) → ∀ k bs, s.getBlockingAssign n k c = .ok bs → bs = [] := by
    intro f q h1 h2 h3 h4 ih k bs h
    cases k with
    | zero => simp [BV.getBlockingAssign] at h
    | succ k =>
      simp only [BV.getBlockingAssign, frame_ok h4, ok_bind, h2, if_true, h1, Dict.get?_nil, Option.getD_none, h3] at h
      exact ih k bs h
  induction h with
  | base l f m h1 h2 _ _ h6 _ h3 h4 h5 h7 =>
    refine hup f mod h2.blocking h2.always h6 h1 ?_
    intro k bs h
    cases k with
    | zero => simp [BV.getBlockingAssign] at h
    | succ k =>
      simp only [BV.getBlockingAssign, frame_ok h4, ok_bind, h7, Bool.false_eq_true, if_false, ok_inj] at h
      exact h.symm
  | block c p l f hc h1 h2 _ _ h6 _ ih =>
    exact hup f c h2.blocking h2.always h6 h1 (ih (fun f q h1 h2 h3 h4 ih k bs h => by
      cases k with
      | zero => simp [BV.getBlockingAssign] at h
      | succ k =>
        simp only [BV.getBlockingAssign, frame_ok h4, ok_bind, h2, if_true, h1, Dict.get?_nil, Option.getD_none, h3] at h
        exact ih k bs h))
  | cond c p l f e hc h1 h2 _ _ _ h6 _ ih =>
    exact hup f c h2.blocking h2.always h6 h1 (ih (fun f q h1 h2 h3 h4 ih k bs h => by
      cases k with
      | zero => simp [BV.getBlockingAssign] at h
      | succ k =>
        simp only [BV.getBlockingAssign, frame_ok h4, ok_bind, h2, if_true, h1, Dict.get?_nil, Option.getD_none, h3] at h
        exact ih k bs h))

/-- Resolving in a scope of the block changes nothing. -/
theorem resEnv_chain {path : ScopeChain → Py CondPath} (h : Chain s.frames mod x ai c p) (hf : FlatTerms s.terms mod) {t r}
    (hr : (s.resEnv path c).resolve t = .ok r) : s.flatR.resolve t = .ok r := by
  refine resolve_mono (R := s.resEnv path c) (R' := s.flatR) ?_ (fun _ _ h => h) ?_ t r hr
  · intro n r hr
    simp only [BV.resEnv, bind_ok] at hr
    obtain ⟨g, hg, hr⟩ := hr
    have : g = false := by
      simp only [BV.isGenvar] at hg
      split at hg
      · cases hg
      · rename_i t ht; cases hg; exact hf.2 _ _ ht
    subst this
    simp only [Bool.false_eq_true, if_false, bind_ok] at hr
    obtain ⟨bs, hbs, hr⟩ := hr
    rw [getBlocking_chain h n _ _ hbs] at hr
    simpa [BV.flatR] using hr
  · intro n r hr
    rw [getBlocking_chain h n _ _ hr]
    rfl

theorem exprEnv_chain {path : ScopeChain → Py CondPath} (h : Chain s.frames mod x ai c p) (hf : FlatTerms s.terms mod)
    (hn : s.noreorder = false) {e t} (he : e.flat = true)
    (hr : (s.exprEnv (s.timesOf path c) c).makeDF e = .ok t) : (s.flatE mod).makeDF e = .ok t := by
  refine makeDF_mono (E := s.exprEnv (s.timesOf path c) c) (E' := s.flatE mod) ?_ (fun _ _ h => h) ?_ e he t hr
  · intro n r hr
    simp only [BV.exprEnv, search_chain h hf] at hr
    exact hr
  · intro l r hr
    simp only [BV.exprEnv, BV.timesOf, bind_ok, hn, Bool.false_eq_true, if_false] at hr
    obtain ⟨u, hu, u', hu', w, hw, hr⟩ := hr
    simp only [ResEnv.resolve, ok_inj] at hu
    subst hu
    have : u' = .intc l := reorder_nf_id (by simp [nf]) _ _ hu'
    subst this
    simp [BV.flatE, hw, ok_bind, hr]

theorem getTree_chain (h : Chain s.frames mod x ai c p) (hf : FlatTerms s.terms mod) (hn : s.noreorder = false) {e r}
    (he : e.flat = true) (hr : s.getTree e c = .ok r) : (s.flatA mod).rhs e = .ok r := by
  simp only [BV.getTree, hn, Bool.false_eq_true, if_false, bind_ok] at hr
  obtain ⟨t, ht, u, hu, hr⟩ := hr
  simp only [BV.flatA, exprEnv_chain h hf hn he ht, ok_bind, resEnv_chain h hf hu, hr]

/-! ### The path of conditions -/

theorem reduceIf_append {c : ScopeChain} {l : ScopeLabel} : reduceIfScope (c ++ [l]) = if l.type = .if_ then c else reduceIfScope c := by
  simp only [reduceIfScope, List.reverse_append, List.reverse_cons, List.reverse_nil, List.nil_append, List.cons_append, reduceIfRev]
  split <;> simp

theorem chain_reduce {fr} (h : Chain fr mod x ai c p) (hp : p ≠ []) : Chain fr mod x ai (reduceIfScope c) p.dropLast := by
  induction h with
  | base => exact absurd rfl hp
  | block c p l f hc _ _ _ _ _ h7 ih => rw [reduceIf_append, if_neg h7.1]; exact ih hp
  | cond c p l f e hc _ _ _ _ _ _ h7 ih => rw [reduceIf_append, if_pos h7]; simpa using hc

theorem rawConds_chain (h : Chain s.frames mod x ai c p) : ∀ k raw, s.rawConds k c = .ok raw →
    raw.map (fun r => (r.1, r.2.2)) = p.reverse ∧ (∀ r ∈ raw, r.1.flat = true ∧ ∃ q, Chain s.frames mod x ai (reduceIfScope r.2.1) q) := by
  induction h with
  | base l f m h1 h2 _ h5 h6 _ h3 h4 h7 h8 h9 =>
    intro k raw h
    cases k with
    | zero => simp [BV.rawConds] at h
    | succ k =>
      simp only [BV.rawConds, frame_ok h1, ok_bind, h5, h2.notModule, Bool.false_eq_true, if_false, List.nil_append, h6, bind_ok, ok_inj] at h
      obtain ⟨rest, h, rfl⟩ := h
      cases k with
      | zero => simp [BV.rawConds] at h
      | succ k =>
        simp only [BV.rawConds, frame_ok h4, ok_bind, h9, h7, if_true, ok_inj] at h
        subst h
        simp
  | block c p l f hc h1 h2 _ h5 h6 h7 ih =>
    intro k raw h
    cases k with
    | zero => simp [BV.rawConds] at h
    | succ k =>
      simp only [BV.rawConds, frame_ok h1, ok_bind, h5, h2.notModule, Bool.false_eq_true, if_false, List.nil_append, h6, bind_ok, ok_inj] at h
      obtain ⟨rest, h, rfl⟩ := h
      exact ih k _ h
  | cond c p l f e hc h1 h2 _ h5 he h6 h7 ih =>
    intro k raw h
    cases k with
    | zero => simp [BV.rawConds] at h
    | succ k =>
      simp only [BV.rawConds, frame_ok h1, ok_bind, h5, h2.notModule, Bool.false_eq_true, if_false, h6, bind_ok, ok_inj] at h
      obtain ⟨rest, h, rfl⟩ := h
      obtain ⟨i1, i2⟩ := ih k _ h
      refine ⟨by simp [i1], ?_⟩
      intro r hr
      simp only [List.cons_append, List.nil_append, List.mem_cons] at hr
      rcases hr with rfl | hr
      · exact ⟨he, p, by simpa [reduceIf_append, h7] using hc⟩
      · exact i2 r hr

theorem resolveConds_chain {path : ScopeChain → Py CondPath} (hf : FlatTerms s.terms mod) (cs : CondPath) :
    ∀ c p rs, Chain s.frames mod x ai c p → cs.length = p.length → s.resolveConds path (reduceIfScope c) cs = .ok rs →
      List.Forall₂ (fun a b => s.flatR.resolve a.1 = .ok b.1 ∧ b.2 = a.2) cs rs := by
  induction cs with
  | nil => intro c p rs _ _ h; simp only [BV.resolveConds, ok_inj] at h; subst h; exact .nil
  | cons a cs ih =>
    obtain ⟨t, b⟩ := a
    intro c p rs hc hl h
    simp only [BV.resolveConds, bind_ok, ok_inj] at h
    obtain ⟨t', ht, cs', hcs, rfl⟩ := h
    have hp : p ≠ [] := by rintro rfl; simp at hl
    have hc' := chain_reduce hc hp
    refine .cons ⟨resEnv_chain hc' hf ht, rfl⟩ (ih _ _ _ hc' ?_ hcs)
    simp at hl ⊢
    omega

theorem path_forall {A : TEnv} {p : ExPath} {p' : CondPath} (h : List.Forall₂ (fun a b => A.cond a.1 = .ok b.1 ∧ b.2 = a.2) p p') :
    A.path p = .ok p' := by
  induction h with
  | nil => rfl
  | @cons a b _ _ h1 _ ih =>
    obtain ⟨e, d⟩ := a
    obtain ⟨t, d'⟩ := b
    obtain ⟨h1, rfl⟩ := h1
    simp only [TEnv.path] at ih ⊢
    simp only at h1
    rw [h1, ok_bind, ih, ok_bind]

theorem condflow_chain (h : Chain s.frames mod x ai c p) (hf : FlatTerms s.terms mod) (hn : s.noreorder = false) {k p'}
    (hp : s.condflow k c = .ok p') : (s.flatA mod).path p = .ok p' := by
  cases k with
  | zero => simp [BV.condflow] at hp
  | succ k =>
    simp only [BV.condflow, bind_ok, ok_inj] at hp
    obtain ⟨raw, hraw, cs, hcs, rs, hrs, rfl⟩ := hp
    obtain ⟨h1, h2⟩ := rawConds_chain h _ _ hraw
    have hF := mapM_ok.mp hcs
    have hlen : cs.length = p.length := by
      have a1 := hF.length_eq
      have a2 := congrArg List.length h1
      simp at a2
      omega
    have hR := resolveConds_chain hf cs c p rs h hlen hrs
    have key : ∀ (raw : List (Ex × ScopeChain × Bool)) (cs rs : CondPath),
        (∀ r ∈ raw, r.1.flat = true ∧ ∃ q, Chain s.frames mod x ai (reduceIfScope r.2.1) q) →
        List.Forall₂ (fun r y => (do
          let t ← (s.exprEnv (s.timesOf (s.condflow k) (reduceIfScope r.2.1)) (reduceIfScope r.2.1)).makeDF r.1
          .ok (t, r.2.2)) = Except.ok y) raw cs →
        List.Forall₂ (fun a b => s.flatR.resolve a.1 = .ok b.1 ∧ b.2 = a.2) cs rs →
        List.Forall₂ (fun a b => (s.flatA mod).cond a.1 = .ok b.1 ∧ b.2 = a.2) (raw.map (fun r => (r.1, r.2.2))) rs := by
      intro raw
      induction raw with
      | nil => intro cs rs _ h1 h2; cases h1; cases h2; exact .nil
      | cons r raw ih =>
        intro cs rs hq h1 h2
        cases h1 with
        | cons a1 a2 =>
          cases h2 with
          | cons b1 b2 =>
            simp only [bind_ok, ok_inj] at a1
            obtain ⟨t, ht, rfl⟩ := a1
            obtain ⟨hfl, q, hc⟩ := hq r (by simp)
            refine .cons ⟨?_, b1.2⟩ (ih _ _ (fun r hr => hq r (by simp [hr])) a2 b2)
            simp only [BV.flatA, exprEnv_chain hc hf hn hfl ht, ok_bind]
            exact b1.1
    have := key raw cs rs h2 hF hR
    rw [h1] at this
    have := List.rel_reverse this
    rw [List.reverse_reverse] at this
    exact path_forall this

end

end Pyv
