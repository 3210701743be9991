import Verif.Props.BaConv
/-
  C74: the frames of an always block with blocking assignments, and what the visitor computes in them.
-/
namespace Pyv

/-- The state before an always block, the scope of its module and the one of the block, the signals assigned in it, its
events, and the names allowed in conditions. -/
structure BaEnv where
  s0 : BV
  mod : ScopeChain
  root : ScopeChain
  X : ScopeChain → Prop
  info : AlwaysInfo
  Q : Str → Bool

/-- The signals the names denote. -/
def BaEnv.res (K : BaEnv) : Str → Option ScopeChain := resOf K.s0.terms K.mod

/-- The conversions of conditions. -/
def BaEnv.A (K : BaEnv) : TEnv := K.s0.flatA K.mod

/-- The assigned signals are declared and no arrays; the names of conditions are declared and not assigned. -/
structure BaEnv.OK (K : BaEnv) : Prop where
  decl : ∀ x, K.X x → ∃ t, K.s0.terms.get? x = some t ∧ t.dims = none
  cond : ∀ n, K.Q n = true → ∃ c, K.res n = some c ∧ ¬ K.X c

/-- A frame of an always block without nonblocking assignments. -/
structure BaFrame (K : BaEnv) (f : Frame) : Prop where
  always : f.isAlways = true
  notModule : f.isModule = false
  notF : f.isFcall = false
  notT : f.isTcall = false
  nonblocking : f.nonblocking = []
  nodup : f.blocking.Nodup
  keys : ∀ x ids, f.blocking.get? x = some ids → K.X x ∧ ∃ i, ids = [i]

/-- The frames from the always block down to a scope, with the path of conditions. -/
inductive BaChain (K : BaEnv) (fr : Dict ScopeChain Frame) : ScopeChain → ExPath → Prop
  | base (l : ScopeLabel) (f m : Frame) : K.root = K.mod ++ [l] → fr.get? K.root = some f → BaFrame K f → f.always = some K.info → f.cond = none →
      f.previous = K.mod → l.type ≠ .if_ ∧ l.type ≠ .module → K.mod ≠ [] → fr.get? K.mod = some m → m.isModule = true → m.isAlways = false →
      m.cond = none → BaChain K fr K.root []
  | block (c : ScopeChain) (p : ExPath) (l : ScopeLabel) (f : Frame) : BaChain K fr c p → fr.get? (c ++ [l]) = some f →
      BaFrame K f → f.always = none → f.cond = none → f.previous = c → l.type ≠ .if_ ∧ l.type ≠ .module → BaChain K fr (c ++ [l]) p
  | cond (c : ScopeChain) (p : ExPath) (l : ScopeLabel) (f : Frame) (e : Ex) : BaChain K fr c p →
      fr.get? (c ++ [l]) = some f → BaFrame K f → f.always = none → f.cond = some e → e.flat = true ∧ e.noCond = true ∧ e.allNames K.Q = true →
      f.previous = c → l.type = .if_ → BaChain K fr (c ++ [l]) (p ++ [(e, !f.isElse)])

/-- The reference to the assignment of a signal that a frame knows. -/
def BV.ent (s : BV) (c x : ScopeChain) : Option Nat :=
  match s.frames.get? c with
  | some f => (f.blocking.get? x).bind List.head?
  | none => none

/-- The reference in the table of assignments. -/
def BV.tid (s : BV) (x : ScopeChain) : Option Nat := (s.binds.get? x).bind List.head?

/-- The tree of an object. -/
def BV.trOf (s : BV) (i : Nat) : DF := match s.objs[i]? with | some b => b.tree | none => .none

/-- Tables while an always block is visited. -/
structure BaWF (K : BaEnv) (s : BV) : Prop where
  ext : ∀ n t, K.s0.terms.get? n = some t → s.terms.get? n = some t
  flat : FlatTerms s.terms K.mod
  nore : s.noreorder = false
  fuel : s.fuel = K.s0.fuel
  keys : ∀ n ids, s.binds.get? n = some ids → s.terms.has n = true
  objs : ∀ n ids, s.binds.get? n = some ids → ∀ i ∈ ids, ∃ b, s.objs[i]? = some b ∧ b.dest = n
  tabs : ∀ x ids, K.X x → s.binds.get? x = some ids → ∃ i b, ids = [i] ∧ s.objs[i]? = some b ∧ b.dest = x ∧ b.whole ∧ b.always = some K.info

/-- The assignments known in the frames down to a scope are ones to the whole signal. -/
def BaFr (K : BaEnv) (s : BV) (c : ScopeChain) : Prop :=
  ∀ c', K.root <+: c' → c' <+: c → ∀ x i, s.ent c' x = some i → ∃ b, s.objs[i]? = some b ∧ b.dest = x ∧ b.whole

section
variable {K : BaEnv} {s : BV} {c : ScopeChain} {p : ExPath}

theorem BaChain.under {fr} (h : BaChain K fr c p) : K.root <+: c := by
  induction h with
  | base => exact List.prefix_refl _
  | block c p l f _ _ _ _ _ _ _ ih => exact ih.trans (List.prefix_append _ _)
  | cond c p l f e _ _ _ _ _ _ _ _ ih => exact ih.trans (List.prefix_append _ _)

theorem BaChain.inMod {fr} (h : BaChain K fr c p) : ∃ ls, ls ≠ [] ∧ c = K.mod ++ ls := by
  induction h with
  | base l f m h => exact ⟨[l], by simp, h⟩
  | block c p l f _ _ _ _ _ _ _ ih => obtain ⟨ls, h, rfl⟩ := ih; exact ⟨ls ++ [l], by simp, by simp⟩
  | cond c p l f e _ _ _ _ _ _ _ _ ih => obtain ⟨ls, h, rfl⟩ := ih; exact ⟨ls ++ [l], by simp, by simp⟩

theorem BaChain.ne {fr} (h : BaChain K fr c p) : c ≠ [] := by
  obtain ⟨ls, hl, rfl⟩ := h.inMod
  intro e
  exact hl (List.append_eq_nil_iff.mp e).2

theorem BaChain.frame {fr} (h : BaChain K fr c p) : ∃ f, fr.get? c = some f ∧ BaFrame K f := by
  cases h with
  | base l f m _ h1 h2 => exact ⟨f, h1, h2⟩
  | block c p l f _ h1 h2 => exact ⟨f, h1, h2⟩
  | cond c p l f e _ h1 h2 => exact ⟨f, h1, h2⟩

theorem BaChain.exPath {fr} (h : BaChain K fr c p) : ExPathOK p := by
  induction h with
  | base => intro q hq; cases hq
  | block c p l f _ _ _ _ _ _ _ ih => exact ih
  | cond c p l f e _ _ _ _ _ he _ _ ih => exact exPathOK_snoc ih he.2.1

theorem BaChain.same {fr fr' : Dict ScopeChain Frame} (h : BaChain K fr c p)
    (hs : ∀ c', c' <+: c → fr'.get? c' = fr.get? c') : BaChain K fr' c p := by
  induction h with
  | base l f m h0 h1 h2 h3 h4 h5 h6 h7 h8 h9 h10 h11 =>
    exact .base l f m h0 (by rw [hs _ (List.prefix_refl _)]; exact h1) h2 h3 h4 h5 h6 h7
      (by rw [hs _ (by rw [h0]; exact List.prefix_append _ _)]; exact h8) h9 h10 h11
  | block c p l f hc h1 h2 h3 h4 h5 h6 ih =>
    exact .block c p l f (ih (fun c' h => hs c' (h.trans (List.prefix_append _ _))))
      (by rw [hs _ (List.prefix_refl _)]; exact h1) h2 h3 h4 h5 h6
  | cond c p l f e hc h1 h2 h3 h4 h5 h6 h7 ih =>
    exact .cond c p l f e (ih (fun c' h => hs c' (h.trans (List.prefix_append _ _))))
      (by rw [hs _ (List.prefix_refl _)]; exact h1) h2 h3 h4 h5 h6 h7

/-- Only the assignments known in the frame change. -/
theorem BaChain.own {fr fr' : Dict ScopeChain Frame} (h : BaChain K fr c p)
    (hfr : ∀ c', ¬ c <+: c' → fr'.get? c' = fr.get? c') {f bl} (h1 : fr.get? c = some f)
    (h2 : fr'.get? c = some { f with blocking := bl }) (h3 : BaFrame K { f with blocking := bl }) : BaChain K fr' c p := by
  cases h with
  | base l f m g0 g1 g2 g3 g4 g5 g6 g7 g8 g9 g10 g11 =>
    rw [g1] at h1; cases h1
    exact .base l _ m g0 h2 h3 g3 g4 g5 g6 g7 (by rw [hfr _ (by rw [g0]; exact not_prefix_snoc (List.prefix_refl _))]; exact g8) g9 g10 g11
  | block c p l f hc g1 g2 g3 g4 g5 g6 =>
    rw [g1] at h1; cases h1
    exact .block c _ l _ (hc.same (fun c' h => hfr _ (not_prefix_snoc h))) h2 h3 g3 g4 g5 g6
  | cond c p l f e hc g1 g2 g3 g4 g5 g6 g7 =>
    rw [g1] at h1; cases h1
    exact .cond c p l { f with blocking := bl } e (hc.same (fun c' h => hfr _ (not_prefix_snoc h))) h2 h3 g3 g4 g5 g6 g7

theorem search_ba (h : BaChain K s.frames c p) (hf : FlatTerms s.terms K.mod) (n : Str) :
    s.searchTerminal n c = .ok (resOf s.terms K.mod n) := by
  have hmod : ∀ m, K.mod ≠ [] → s.frames.get? K.mod = some m → m.isModule = true → s.searchTerminal n K.mod = .ok (resOf s.terms K.mod n) := by
    intro m h1 h2 h3
    rw [BV.searchTerminal, dif_neg h1]
    split
    · rename_i h4; simp [resOf, h4]
    · rename_i h4; simp [frame_ok h2, ok_bind, h3, resOf, h4]
  induction h with
  | base l f m h0 h1 h2 _ _ _ hl h3 h4 h5 =>
    rw [h0] at h1 ⊢
    rw [BV.searchTerminal, dif_neg (by simp), show s.terms.has (K.mod ++ [l] ++ [⟨n, .signal, none⟩]) = false from hf.1 [] l n hl.2, frame_ok h1, ok_bind]
    simp only [Bool.false_eq_true, if_false, h2.notModule, List.dropLast_concat]
    exact hmod m h3 h4 h5
  | block c p l f hc h1 h2 _ _ _ hl ih =>
    obtain ⟨ls, hls, rfl⟩ := hc.inMod
    rw [BV.searchTerminal, dif_neg (by simp), List.append_assoc K.mod ls [l], hf.1 ls l n hl.2, ← List.append_assoc, frame_ok h1, ok_bind]
    simp only [Bool.false_eq_true, if_false, h2.notModule, List.dropLast_concat]
    exact ih
  | cond c p l f e hc h1 h2 _ _ _ _ hl ih =>
    obtain ⟨ls, hls, rfl⟩ := hc.inMod
    rw [BV.searchTerminal, dif_neg (by simp), List.append_assoc K.mod ls [l], hf.1 ls l n (by rw [hl]; decide), ← List.append_assoc, frame_ok h1, ok_bind]
    simp only [Bool.false_eq_true, if_false, h2.notModule, List.dropLast_concat]
    exact ih

theorem ent_none {f : Frame} {x : ScopeChain} (hf : s.frames.get? c = some f) (hb : BaFrame K f) :
    s.ent c x = none ↔ f.blocking.get? x = none := by
  simp only [BV.ent, hf]
  cases h : f.blocking.get? x with
  | none => simp
  | some ids => obtain ⟨-, i, rfl⟩ := hb.keys x ids h; simp

theorem ent_some {f : Frame} {x : ScopeChain} {i : Nat} (hf : s.frames.get? c = some f) (hb : BaFrame K f) :
    s.ent c x = some i ↔ f.blocking.get? x = some [i] := by
  simp only [BV.ent, hf]
  cases h : f.blocking.get? x with
  | none => simp
  | some ids => obtain ⟨-, j, rfl⟩ := hb.keys x ids h; simp

/-- What is found for a signal in a scope: the assignment in the innermost frame that has one. -/
theorem getBlocking_ba (h : BaChain K s.frames c p) (n : ScopeChain) : ∀ k bs, s.getBlockingAssign n k c = .ok bs →
    (∃ c' i, K.root <+: c' ∧ c' <+: c ∧ s.ent c' n = some i ∧ K.X n ∧ bs = s.deref [i] ∧ ∀ d, c' <+: d → d <+: c → d ≠ c' → s.ent d n = none) ∨
    (bs = [] ∧ ∀ d, K.root <+: d → d <+: c → s.ent d n = none) := by
  have hup : ∀ c f q, BaFrame K f → f.previous = q → s.frames.get? c = some f → ∀ k bs, s.getBlockingAssign n k c = .ok bs →
      (∃ i, s.ent c n = some i ∧ K.X n ∧ bs = s.deref [i]) ∨ (s.ent c n = none ∧ ∃ k', s.getBlockingAssign n k' q = .ok bs) := by
    intro c f q h1 h3 h4 k bs h
    cases k with
    | zero => simp [BV.getBlockingAssign] at h
    | succ k =>
      simp only [BV.getBlockingAssign, frame_ok h4, ok_bind, h1.always, if_true, h3] at h
      cases hb : f.blocking.get? n with
      | none => rw [hb] at h; exact .inr ⟨(ent_none h4 h1).mpr hb, k, h⟩
      | some ids =>
        obtain ⟨hX, i, rfl⟩ := h1.keys n ids hb
        simp only [hb, Option.getD_some, List.cons_ne_nil, if_false, ok_inj] at h
        exact .inl ⟨i, (ent_some h4 h1).mpr hb, hX, h.symm⟩
  have lift : ∀ c l bs, K.root <+: c → s.ent (c ++ [l]) n = none →
      ((∃ c' i, K.root <+: c' ∧ c' <+: c ∧ s.ent c' n = some i ∧ K.X n ∧ bs = s.deref [i] ∧ ∀ d, c' <+: d → d <+: c → d ≠ c' → s.ent d n = none) ∨
        (bs = [] ∧ ∀ d, K.root <+: d → d <+: c → s.ent d n = none)) →
      ((∃ c' i, K.root <+: c' ∧ c' <+: c ++ [l] ∧ s.ent c' n = some i ∧ K.X n ∧ bs = s.deref [i] ∧
          ∀ d, c' <+: d → d <+: c ++ [l] → d ≠ c' → s.ent d n = none) ∨
        (bs = [] ∧ ∀ d, K.root <+: d → d <+: c ++ [l] → s.ent d n = none)) := by
    intro c l bs hr he h
    rcases h with ⟨c', i, a1, a2, a3, a4, a5, a6⟩ | ⟨a1, a2⟩
    · refine .inl ⟨c', i, a1, a2.trans (List.prefix_append _ _), a3, a4, a5, ?_⟩
      intro d h1 h2 h3
      rcases List.prefix_concat_iff.mp h2 with rfl | h2
      · exact he
      · exact a6 d h1 h2 h3
    · refine .inr ⟨a1, ?_⟩
      intro d h1 h2
      rcases List.prefix_concat_iff.mp h2 with rfl | h2
      · exact he
      · exact a2 d h1 h2
  induction h with
  | base l f m h0 h1 h2 _ _ h6 _ h3 h4 h5 h7 =>
    intro k bs h
    rcases hup _ f K.mod h2 h6 h1 k bs h with ⟨i, a1, a2, a3⟩ | ⟨a1, k', h⟩
    · refine .inl ⟨K.root, i, List.prefix_refl _, List.prefix_refl _, a1, a2, a3, ?_⟩
      intro d h1 h2 h3
      exact absurd (h2.eq_of_length (Nat.le_antisymm h2.length_le h1.length_le)) h3
    · refine .inr ⟨?_, ?_⟩
      · cases k' with
        | zero => simp [BV.getBlockingAssign] at h
        | succ k =>
          simp only [BV.getBlockingAssign, frame_ok h4, ok_bind, h7, Bool.false_eq_true, if_false, ok_inj] at h
          exact h.symm
      · intro d h1 h2
        rw [h2.eq_of_length (Nat.le_antisymm h2.length_le h1.length_le)]
        exact a1
  | block c p l f hc h1 h2 _ _ h6 _ ih =>
    intro k bs h
    rcases hup _ f c h2 h6 h1 k bs h with ⟨i, a1, a2, a3⟩ | ⟨a1, k', h⟩
    · refine .inl ⟨_, i, hc.under.trans (List.prefix_append _ _), List.prefix_refl _, a1, a2, a3, ?_⟩
      intro d h1 h2 h3
      exact absurd (h2.eq_of_length (Nat.le_antisymm h2.length_le h1.length_le)) h3
    · exact lift c l bs hc.under a1 (ih k' bs h)
  | cond c p l f e hc h1 h2 _ _ _ h6 _ ih =>
    intro k bs h
    rcases hup _ f c h2 h6 h1 k bs h with ⟨i, a1, a2, a3⟩ | ⟨a1, k', h⟩
    · refine .inl ⟨_, i, hc.under.trans (List.prefix_append _ _), List.prefix_refl _, a1, a2, a3, ?_⟩
      intro d h1 h2 h3
      exact absurd (h2.eq_of_length (Nat.le_antisymm h2.length_le h1.length_le)) h3
    · exact lift c l bs hc.under a1 (ih k' bs h)

theorem getBlocking_other (h : BaChain K s.frames c p) {n : ScopeChain} (hn : ¬ K.X n) {k bs} (hb : s.getBlockingAssign n k c = .ok bs) : bs = [] := by
  rcases getBlocking_ba h n k bs hb with ⟨_, _, _, _, _, hX, _⟩ | ⟨h, _⟩
  · exact absurd hX hn
  · exact h

/-! ### The path of conditions -/

theorem ba_reduce {fr} (h : BaChain K fr c p) (hp : p ≠ []) : BaChain K fr (reduceIfScope c) p.dropLast := by
  induction h with
  | base => exact absurd rfl hp
  | block c p l f hc _ _ _ _ _ h7 ih => rw [reduceIf_append, if_neg h7.1]; exact ih hp
  | cond c p l f e hc _ _ _ _ _ _ h7 ih => rw [reduceIf_append, if_pos h7]; simpa using hc

theorem rawConds_ba (h : BaChain K s.frames c p) : ∀ k raw, s.rawConds k c = .ok raw →
    raw.map (fun r => (r.1, r.2.2)) = p.reverse ∧
    (∀ r ∈ raw, (r.1.flat = true ∧ r.1.noCond = true ∧ r.1.allNames K.Q = true) ∧ ∃ q, BaChain K s.frames (reduceIfScope r.2.1) q) := by
  induction h with
  | base l f m h0 h1 h2 _ h5 h6 _ h3 h4 h7 h8 h9 =>
    intro k raw h
    cases k with
    | zero => simp [BV.rawConds] at h
    | succ k =>
      simp only [BV.rawConds, frame_ok h1, ok_bind, h5, h2.notModule, Bool.false_eq_true, if_false, List.nil_append, h6, bind_ok, ok_inj] at h
      obtain ⟨rest, h, rfl⟩ := h
      cases k with
      | zero => simp [BV.rawConds] at h
      | succ k =>
        simp only [BV.rawConds, frame_ok h4, ok_bind, h9, h7, if_true, ok_inj] at h
        subst h
        simp
  | block c p l f hc h1 h2 _ h5 h6 h7 ih =>
    intro k raw h
    cases k with
    | zero => simp [BV.rawConds] at h
    | succ k =>
      simp only [BV.rawConds, frame_ok h1, ok_bind, h5, h2.notModule, Bool.false_eq_true, if_false, List.nil_append, h6, bind_ok, ok_inj] at h
      obtain ⟨rest, h, rfl⟩ := h
      exact ih k _ h
  | cond c p l f e hc h1 h2 _ h5 he h6 h7 ih =>
    intro k raw h
    cases k with
    | zero => simp [BV.rawConds] at h
    | succ k =>
      simp only [BV.rawConds, frame_ok h1, ok_bind, h5, h2.notModule, Bool.false_eq_true, if_false, h6, bind_ok, ok_inj] at h
      obtain ⟨rest, h, rfl⟩ := h
      obtain ⟨i1, i2⟩ := ih k _ h
      refine ⟨by simp [i1], ?_⟩
      intro r hr
      simp only [List.cons_append, List.nil_append, List.mem_cons] at hr
      rcases hr with rfl | hr
      · exact ⟨he, p, by simpa [reduceIf_append, h7] using hc⟩
      · exact i2 r hr

theorem BaEnv.res_decl (K : BaEnv) {n : Str} {c : ScopeChain} (h : K.res n = some c) : ∃ t, K.s0.terms.get? c = some t := by
  simp only [BaEnv.res, resOf] at h
  split at h
  · rename_i h1
    cases h
    rw [Dict.has_eq] at h1
    exact Option.isSome_iff_exists.mp h1
  · cases h

theorem BaWF.res_mono (hw : BaWF K s) {n : Str} {c : ScopeChain} (h : K.res n = some c) : resOf s.terms K.mod n = some c := by
  obtain ⟨t, ht⟩ := K.res_decl h
  simp only [BaEnv.res, resOf] at h ⊢
  split at h
  · cases h
    rw [Dict.has_eq, hw.ext _ _ ht]
    rfl
  · cases h

/-- Conditions are converted as in the module. -/
theorem cond_ba {path path' : ScopeChain → Py CondPath} {c' : ScopeChain} {q : ExPath} (hK : K.OK) (hw : BaWF K s)
    (h : BaChain K s.frames c p) (h' : BaChain K s.frames c' q) {e : Ex}
    (he : e.flat = true ∧ e.noCond = true ∧ e.allNames K.Q = true) {t} (ht : (s.exprEnv (s.timesOf path c) c).makeDF e = .ok t) {r}
    (hr : (s.resEnv path' c').resolve t = .ok r) : K.A.cond e = .ok r := by
  have hS : ∀ n, K.Q n = true → ∃ c, resOf s.terms K.mod n = some c ∧ K.res n = some c ∧ (K.s0.terms.get? c).isSome = true ∧ ¬ K.X c := by
    intro n hn
    obtain ⟨d, hd, hX⟩ := hK.cond n hn
    obtain ⟨t, ht⟩ := K.res_decl hd
    exact ⟨d, hw.res_mono hd, hd, by rw [ht]; rfl, hX⟩
  have hdims : ∀ c, (K.s0.terms.get? c).isSome = true ∧ ¬ K.X c → ∀ r, s.hasDims c = .ok r → K.s0.hasDims c = .ok r := by
    intro c hc r hr
    obtain ⟨t, ht⟩ := Option.isSome_iff_exists.mp hc.1
    simpa [BV.hasDims, ht, hw.ext _ _ ht] using hr
  obtain ⟨k1, -, k3⟩ := cond_conv (E := s.exprEnv (s.timesOf path c) c) (E' := K.s0.flatE K.mod) (R := s.resEnv path' c') (R' := K.s0.flatR)
    (Q := K.Q) (S := fun c => (K.s0.terms.get? c).isSome = true ∧ ¬ K.X c)
    (by
      intro n hn r hr
      simp only [BV.exprEnv, search_ba h hw.flat, ok_inj] at hr
      subst hr
      obtain ⟨a, g0, g1, g2, g3⟩ := hS n hn
      rw [g0]
      exact ⟨congrArg Except.ok g1, fun b hb => by cases hb; exact ⟨g2, g3⟩⟩)
    hdims
    (by
      intro l r hr
      simp only [BV.exprEnv, BV.timesOf, bind_ok, hw.nore, Bool.false_eq_true, if_false] at hr
      obtain ⟨u, hu, u', hu', w, hw', hr⟩ := hr
      simp only [ResEnv.resolve, ok_inj] at hu
      subst hu
      have : u' = .intc l := reorder_nf_id (by simp [nf]) _ _ hu'
      subst this
      rw [opt_intc_eq hw.fuel] at hw'
      simp [BV.flatE, hw', ok_bind, hr])
    (by
      intro n hn r hr
      simp only [BV.resEnv, bind_ok] at hr
      obtain ⟨g, hg, hr⟩ := hr
      have : g = false := by
        simp only [BV.isGenvar] at hg
        split at hg
        · cases hg
        · rename_i t ht; cases hg; exact hw.flat.2 _ _ ht
      subst this
      simp only [Bool.false_eq_true, if_false, bind_ok] at hr
      obtain ⟨bs, hbs, hr⟩ := hr
      rw [getBlocking_other h' hn.2 hbs] at hr
      simp only [if_true, ok_inj] at hr
      subst hr
      exact ⟨rfl, rfl⟩)
    hdims
    (by
      intro n hn r hr
      have := getBlocking_other h' hn.2 hr
      subst this
      exact ⟨rfl, rfl⟩) e he.1 he.2.1 he.2.2 t ht
  obtain ⟨-, k4⟩ := k3 r hr
  simp only [BaEnv.A, BV.flatA, k1, ok_bind, k4]

theorem resolveConds_ba {path : ScopeChain → Py CondPath} (cs : CondPath) :
    ∀ c p rs, BaChain K s.frames c p → cs.length = p.length → s.resolveConds path (reduceIfScope c) cs = .ok rs →
      List.Forall₂ (fun a b => (∃ c' q, BaChain K s.frames c' q ∧ (s.resEnv path c').resolve a.1 = .ok b.1) ∧ b.2 = a.2) cs rs := by
  induction cs with
  | nil => intro c p rs _ _ h; simp only [BV.resolveConds, ok_inj] at h; subst h; exact .nil
  | cons a cs ih =>
    obtain ⟨t, b⟩ := a
    intro c p rs hc hl h
    simp only [BV.resolveConds, bind_ok, ok_inj] at h
    obtain ⟨t', ht, cs', hcs, rfl⟩ := h
    have hp : p ≠ [] := by rintro rfl; simp at hl
    have hc' := ba_reduce hc hp
    refine .cons ⟨⟨_, _, hc', ht⟩, rfl⟩ (ih _ _ _ hc' ?_ hcs)
    simp at hl ⊢
    omega

theorem condflow_ba (hK : K.OK) (hw : BaWF K s) (h : BaChain K s.frames c p) {k p'}
    (hp : s.condflow k c = .ok p') : K.A.path p = .ok p' := by
  cases k with
  | zero => simp [BV.condflow] at hp
  | succ k =>
    simp only [BV.condflow, bind_ok, ok_inj] at hp
    obtain ⟨raw, hraw, cs, hcs, rs, hrs, rfl⟩ := hp
    obtain ⟨h1, h2⟩ := rawConds_ba h _ _ hraw
    have hF := mapM_ok.mp hcs
    have hlen : cs.length = p.length := by
      have a1 := hF.length_eq
      have a2 := congrArg List.length h1
      simp at a2
      omega
    have hR := resolveConds_ba cs c p rs h hlen hrs
    have key : ∀ (raw : List (Ex × ScopeChain × Bool)) (cs rs : CondPath),
        (∀ r ∈ raw, (r.1.flat = true ∧ r.1.noCond = true ∧ r.1.allNames K.Q = true) ∧ ∃ q, BaChain K s.frames (reduceIfScope r.2.1) q) →
        List.Forall₂ (fun r y => (do
          let t ← (s.exprEnv (s.timesOf (s.condflow k) (reduceIfScope r.2.1)) (reduceIfScope r.2.1)).makeDF r.1
          .ok (t, r.2.2)) = Except.ok y) raw cs →
        List.Forall₂ (fun a b => (∃ c' q, BaChain K s.frames c' q ∧ (s.resEnv (s.condflow k) c').resolve a.1 = .ok b.1) ∧ b.2 = a.2) cs rs →
        List.Forall₂ (fun a b => K.A.cond a.1 = .ok b.1 ∧ b.2 = a.2) (raw.map (fun r => (r.1, r.2.2))) rs := by
      intro raw
      induction raw with
      | nil => intro cs rs _ h1 h2; cases h1; cases h2; exact .nil
      | cons r raw ih =>
        intro cs rs hq h1 h2
        cases h1 with
        | cons a1 a2 =>
          cases h2 with
          | cons b1 b2 =>
            simp only [bind_ok, ok_inj] at a1
            obtain ⟨t, ht, rfl⟩ := a1
            obtain ⟨hfl, q, hc⟩ := hq r (by simp)
            obtain ⟨⟨c', q', hc', hr'⟩, b3⟩ := b1
            exact .cons ⟨cond_ba hK hw hc hc' hfl ht hr', b3⟩ (ih _ _ (fun r hr => hq r (by simp [hr])) a2 b2)
    have := key raw cs rs h2 hF hR
    rw [h1] at this
    have := List.rel_reverse this
    rw [List.reverse_reverse] at this
    exact path_forall this

theorem alwaysStatus_ba (hc : BaChain K s.frames c p) : ∀ k a, s.alwaysStatus k c = .ok a → a = some K.info := by
  induction hc with
  | base l f m h0 h1 h2 h3 =>
    intro k a h
    cases k with
    | zero => simp [BV.alwaysStatus] at h
    | succ k =>
      simp only [BV.alwaysStatus, frame_ok h1, ok_bind, h2.always, h2.notF, h2.notT, h3] at h
      simpa using h.symm
  | block c p l f hc h1 h2 h3 _ h5 _ ih =>
    intro k a h
    cases k with
    | zero => simp [BV.alwaysStatus] at h
    | succ k =>
      simp only [BV.alwaysStatus, frame_ok h1, ok_bind, h2.always, h2.notF, h2.notT, h3, h5] at h
      exact ih k a (by simpa using h)
  | cond c p l f e hc h1 h2 h3 _ _ h5 _ ih =>
    intro k a h
    cases k with
    | zero => simp [BV.alwaysStatus] at h
    | succ k =>
      simp only [BV.alwaysStatus, frame_ok h1, ok_bind, h2.always, h2.notF, h2.notT, h3, h5] at h
      exact ih k a (by simpa using h)

theorem getDestinations_ba (hc : BaChain K s.frames c p) (hf : FlatTerms s.terms K.mod) {n : Str} {x ds s'}
    (hx : resOf s.terms K.mod n = some x) (h : s.getDestinations (.ident [] n) c = .ok (ds, s')) :
    s' = s ∧ ds = [⟨⟨some x, .none, .none, .none⟩, .none, .none⟩] := by
  simp only [BV.getDestinations, BV.getDsts, BV.getDst, search_ba hc hf, hx, ok_bind, if_true, ok_inj, Prod.mk.injEq] at h
  exact ⟨h.2.symm, h.1.symm⟩

end

end Pyv
