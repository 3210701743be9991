import Verif.Props.ElabSpec
import Verif.Props.DstAssign
/-
  C75: the invariant of the traversal of a design, and the recording of one equation.
-/
namespace Pyv

/-- The names with their types in all scopes. -/
abbrev Decls := List (ScopeChain × List (Str × TermType))

/-- A declared full name with one of its types. -/
def DeclIn (D : Decls) (k : ScopeChain) (ty : TermType) : Prop := ∃ sc tys n, (sc, tys) ∈ D ∧ (n, ty) ∈ tys ∧ k = sigAt sc n

/-- The scopes are module instances, declared once; there are no genvars. -/
structure DesignOK (D : Decls) : Prop where
  mods : ∀ d ∈ D, ∀ l ∈ d.1, l.type = .module
  once : ∀ d ∈ D, ∀ e ∈ D, d.1 = e.1 → d = e
  nogen : ∀ d ∈ D, ∀ n ty, (n, ty) ∈ d.2 → ty ≠ .genvar

/-- The terms are those declared. -/
structure TermsOK (D : Decls) (ts : Dict ScopeChain Term) : Prop where
  sound : ∀ k t, ts.get? k = some t → t.dims = none ∧ t.types.Nodup ∧ (∀ ty ∈ t.types, DeclIn D k ty) ∧ ∃ ty, DeclIn D k ty
  complete : ∀ k ty, DeclIn D k ty → ∃ t, ts.get? k = some t ∧ ty ∈ t.types

/-- A frame of a module. -/
def isModFrame (s : BV) (c : ScopeChain) : Prop :=
  ∃ m, s.frames.get? c = some m ∧ m.isModule = true ∧ m.isAlways = false ∧ m.cond = none

/-- The state between two steps in the scope `c`. -/
structure Inv (D : Decls) (c : ScopeChain) (s : BV) : Prop where
  cur : s.current = c
  ne : c ≠ []
  frames : ∀ c', c' <+: c → c' ≠ [] → isModFrame s c'
  nore : s.noreorder = false
  objs : s.Objs
  terms : TermsOK D s.terms
  single : ∀ x, s.binds.get? x = none ∨ ∃ b, s.getBindlist x = [b] ∧ b.whole

/-- What is recorded for `x` stays. -/
def KeepX (s s' : BV) (x : ScopeChain) : Prop :=
  (s.binds.get? x = none → s'.binds.get? x = none) ∧
  ∀ b, s.getBindlist x = [b] → b.whole → ∃ b', s'.getBindlist x = [b'] ∧ b'.whole ∧ b'.always = b.always ∧ b'.tree = b.tree

theorem KeepX.refl (s : BV) (x : ScopeChain) : KeepX s s x := ⟨id, fun b h hw => ⟨b, h, hw, rfl, rfl⟩⟩

theorem KeepX.trans {s s' s'' : BV} {x : ScopeChain} (h : KeepX s s' x) (g : KeepX s' s'' x) : KeepX s s'' x := by
  refine ⟨g.1 ∘ h.1, fun b hb hw => ?_⟩
  obtain ⟨b1, e1, e2, e3, e4⟩ := h.2 b hb hw
  obtain ⟨b2, f1, f2, f3, f4⟩ := g.2 b1 e1 e2
  exact ⟨b2, f1, f2, f3.trans e3, f4.trans e4⟩

theorem KeepX.of_eq {s s' : BV} {x : ScopeChain} (h1 : s'.binds = s.binds) (h2 : s'.objs = s.objs) : KeepX s s' x := by
  refine ⟨by rw [h1]; exact id, fun b h hw => ⟨b, ?_, hw, rfl, rfl⟩⟩
  simpa [BV.getBindlist, BV.deref, h1, h2] using h

/-- What a step with the equations `qs` leaves. -/
structure Out (D : Decls) (c : ScopeChain) (s s' : BV) (qs : List Eqn) : Prop where
  inv : Inv D c s'
  frames : ∀ c', ¬ (c <+: c' ∧ c' ≠ c) → s'.frames.get? c' = s.frames.get? c'
  keep : ∀ x, (∀ q ∈ qs, q.target ≠ x) → KeepX s s' x
  holds : ∀ q ∈ qs, q.Holds s'

/-- A step of the traversal in the scope `c` records the equations `qs`; the parameters `over` already have a value. -/
def Does (D : Decls) (c : ScopeChain) (over : List Str) (f : BV → Py BV) (qs : List Eqn) : Prop :=
  ∀ s s', Inv D c s → (∀ q ∈ qs, s.binds.get? q.target = none) → (∀ n ∈ over, ∃ b, s.getBindlist (sigAt c n) = [b] ∧ b.whole) →
    f s = .ok s' → Out D c s s' qs

theorem Eqn.Holds.mono {s s' : BV} {q : Eqn} (h : q.Holds s) (hi : s'.Objs) (hn : s.getBindlist q.target = [] → s.binds.get? q.target = none)
    (hk : KeepX s s' q.target) : q.Holds s' := by
  unfold Eqn.Holds at h ⊢
  split at h
  · obtain ⟨b, h1, h2, h3, h4⟩ := h
    obtain ⟨b', e1, e2, e3, e4⟩ := hk.2 b h1 h2
    exact ⟨b', e1, e2, e3.trans h3, by rw [e4]; exact h4⟩
  · obtain ⟨b, h1, h2, h3, h4⟩ := h
    obtain ⟨b', e1, e2, e3, e4⟩ := hk.2 b h1 h2
    exact ⟨b', e1, e2, e3.trans h3, by rw [e4]; exact h4⟩
  · rcases h with ⟨h1, h2⟩ | ⟨b, h1, h2, h3, h4⟩
    · left
      refine ⟨?_, h2⟩
      simp [BV.getBindlist, hk.1 (hn h1), BV.deref]
    · obtain ⟨b', e1, e2, e3, e4⟩ := hk.2 b h1 h2
      right
      exact ⟨b', e1, e2, by rw [e3]; exact h3, by rw [e4]; exact h4⟩

section
variable {D : Decls} {c : ScopeChain} {s s' : BV}

theorem Inv.empty (hI : Inv D c s) {x : ScopeChain} (h : s.getBindlist x = []) : s.binds.get? x = none := by
  rcases hI.single x with h1 | ⟨b, h1, _⟩
  · exact h1
  · rw [h] at h1; cases h1

/-- Steps after each other. -/
theorem Does.seq {over : List Str} {f g : BV → Py BV} {qs rs : List Eqn} (hf : Does D c over f qs) (hg : Does D c over g rs)
    (hnd : ((qs ++ rs).map Eqn.target).Nodup) (ho : ∀ n ∈ over, sigAt c n ∉ (qs ++ rs).map Eqn.target) :
    Does D c over (fun s => do let s1 ← f s; g s1) (qs ++ rs) := by
  intro s s' hI hfree hover h
  simp only [bind_ok] at h
  obtain ⟨s1, h1, h2⟩ := h
  rw [List.map_append, List.nodup_append] at hnd
  have o1 := hf s s1 hI (fun q hq => hfree q (by simp [hq])) hover h1
  have hdisj : ∀ q ∈ qs, ∀ r ∈ rs, q.target ≠ r.target := fun q hq r hr =>
    hnd.2.2 _ (List.mem_map_of_mem hq) _ (List.mem_map_of_mem hr)
  have o2 := hg s1 s' o1.inv (fun r hr => (o1.keep r.target (fun q hq => hdisj q hq r hr)).1 (hfree r (by simp [hr]))) (by
    intro n hn
    obtain ⟨b, hb, hw⟩ := hover n hn
    obtain ⟨b', e1, e2, _⟩ := (o1.keep (sigAt c n) (fun q hq he => ho n hn (by
      rw [← he]; exact List.mem_map_of_mem (by simp [hq])))).2 b hb hw
    exact ⟨b', e1, e2⟩) h2
  refine ⟨o2.inv, fun c' hc => (o2.frames c' hc).trans (o1.frames c' hc), ?_, ?_⟩
  · intro x hx
    exact (o1.keep x (fun q hq => hx q (by simp [hq]))).trans (o2.keep x (fun q hq => hx q (by simp [hq])))
  · intro q hq
    rcases List.mem_append.mp hq with hq | hq
    · exact (o1.holds q hq).mono o2.inv.objs o1.inv.empty (o2.keep _ (fun r hr => (hdisj q hq r hr).symm))
    · exact o2.holds q hq

theorem Does.id {over : List Str} : Does D c over (fun s => .ok s) [] := by
  intro s s' hI _ _ h
  simp only [ok_inj] at h
  subst h
  exact ⟨hI, fun _ _ => rfl, fun x _ => .refl s x, by simp⟩

/-- The steps of a list. -/
theorem Does.fold {α : Type} {over : List Str} {f : BV → α → Py BV} {g : α → List Eqn} (l : List α)
    (h : ∀ a ∈ l, Does D c over (fun s => f s a) (g a)) : ((l.flatMap g).map Eqn.target).Nodup →
    (∀ n ∈ over, sigAt c n ∉ (l.flatMap g).map Eqn.target) → Does D c over (fun s => l.foldlM f s) (l.flatMap g) := by
  induction l with
  | nil => intro _ _; exact Does.id
  | cons a l ih =>
    intro hnd ho
    simp only [List.flatMap_cons] at hnd ho ⊢
    simp only [List.foldlM_cons]
    refine Does.seq (h a (by simp)) (ih (fun b hb => h b (by simp [hb])) ?_ ?_) hnd ho
    · rw [List.map_append, List.nodup_append] at hnd; exact hnd.2.1
    · intro n hn hm; exact ho n hn (by rw [List.map_append]; simp [hm])

/-! ### Names -/

theorem sigAt_inj {a b : ScopeChain} {m n : Str} (h : sigAt a m = sigAt b n) : a = b ∧ m = n := by
  simp only [sigAt] at h
  have := List.append_inj' h rfl
  exact ⟨this.1, by simpa using this.2⟩

theorem TermsOK.has {ts : Dict ScopeChain Term} (h : TermsOK D ts) {k : ScopeChain} : ts.has k = true ↔ ∃ ty, DeclIn D k ty := by
  rw [Dict.has_eq]
  constructor
  · intro hk
    obtain ⟨t, ht⟩ := Option.isSome_iff_exists.mp hk
    exact (h.sound k t ht).2.2.2
  · rintro ⟨ty, hd⟩
    obtain ⟨t, ht, _⟩ := h.complete k ty hd
    simp [ht]

theorem TermsOK.flat {ts : Dict ScopeChain Term} (h : TermsOK D ts) (hD : DesignOK D) (mod : ScopeChain) : FlatTerms ts mod := by
  constructor
  · intro ls l n hl
    by_contra hh
    rw [Bool.not_eq_false, h.has] at hh
    obtain ⟨ty, sc, tys, n', hd, _, he⟩ := hh
    obtain ⟨rfl, _⟩ := sigAt_inj (a := mod ++ (ls ++ [l])) he
    exact hl (hD.mods _ hd l (by simp))
  · intro n t ht
    rw [Bool.eq_false_iff]
    intro hc
    obtain ⟨sc, tys, n', hd, hm, _⟩ := (h.sound n t ht).2.2.1 .genvar (by simpa using hc)
    exact hD.nogen _ hd _ _ hm rfl

theorem TermsOK.resOf {ts : Dict ScopeChain Term} (h : TermsOK D ts) (hD : DesignOK D) {sc : ScopeChain} {m : ModuleDef}
    (hm : (sc, m.termTypes) ∈ D) : resOf ts sc = m.resAt sc := by
  funext n
  unfold Pyv.resOf ModuleDef.resAt
  have : ts.has (sc ++ [⟨n, .signal, none⟩]) = true ↔ n ∈ m.names := by
    rw [h.has]
    constructor
    · rintro ⟨ty, sc', tys, n', hd, hn, he⟩
      obtain ⟨rfl, rfl⟩ := sigAt_inj (a := sc) he
      have := hD.once _ hd _ hm rfl
      simp only [Prod.mk.injEq, true_and] at this
      subst this
      exact List.mem_map.mpr ⟨_, hn, rfl⟩
    · intro hn
      obtain ⟨⟨n', ty⟩, h1, rfl⟩ := List.mem_map.mp hn
      exact ⟨ty, sc, _, _, hm, h1, rfl⟩
  by_cases hn : n ∈ m.names
  · rw [if_pos hn, if_pos (this.mpr hn)]; rfl
  · rw [if_neg hn, if_neg (fun h => hn (this.mp h))]

theorem Inv.modAt (hI : Inv D c s) (hD : DesignOK D) {c' : ScopeChain} (h : c' <+: c) (hne : c' ≠ []) : s.ModAt c' :=
  ⟨hne, hI.frames c' h hne, hI.terms.flat hD c', hI.nore⟩

theorem Inv.arrays (hI : Inv D c s) {ρ : Env} (h : ∀ n, ρ.arr n = none) : s.ArraysAgree ρ := by
  refine ⟨fun n f hn => by simp [h] at hn, fun k t hk => ?_⟩
  simp [(hI.terms.sound k t hk).1, h]

/-! ### One equation -/

/-- A step that only records one assignment to a free signal. -/
theorem record_one (hI : Inv D c s) {b : Bind} (hf : s.binds.get? b.dest = none) (hw : b.whole) :
    Inv D c ((s.alloc b).addBindObj b.dest s.objs.length b) ∧
    (∀ c', ((s.alloc b).addBindObj b.dest s.objs.length b).frames.get? c' = s.frames.get? c') ∧
    (∀ x, b.dest ≠ x → KeepX s ((s.alloc b).addBindObj b.dest s.objs.length b) x) ∧
    ((s.alloc b).addBindObj b.dest s.objs.length b).getBindlist b.dest = [b] := by
  have he : (s.alloc b).addBindObj b.dest s.objs.length b = { s.alloc b with binds := Dict.set s.binds b.dest [s.objs.length] } := by
    have : (s.alloc b).binds.get? b.dest = none := hf
    simp only [BV.addBindObj, this]
    rfl
  have hadd := addBindObj_added b hI.objs
  have hother := hadd.others
  rw [he] at hadd hother ⊢
  have hself : BV.getBindlist { s.alloc b with binds := Dict.set s.binds b.dest [s.objs.length] } b.dest = [b] := by
    simp [BV.getBindlist, Dict.get?_set, BV.deref, BV.alloc]
  have hbinds : ∀ x, b.dest ≠ x → (Dict.set s.binds b.dest [s.objs.length]).get? x = s.binds.get? x := by
    intro x hx
    rw [Dict.get?_set, if_neg hx]
  refine ⟨⟨hI.cur, hI.ne, hI.frames, hI.nore, hadd.objs, hI.terms, ?_⟩, fun _ => rfl, ?_, hself⟩
  · intro x
    by_cases hx : b.dest = x
    · subst hx; exact .inr ⟨b, hself, hw⟩
    · rcases hI.single x with h | ⟨b1, h1, h2⟩
      · left; show (Dict.set s.binds b.dest [s.objs.length]).get? x = none; rw [hbinds x hx]; exact h
      · right; exact ⟨b1, by rw [hother x (Ne.symm hx)]; exact h1, h2⟩
  · intro x hx
    refine ⟨fun h => ?_, fun b1 h1 h2 => ⟨b1, by rw [hother x (Ne.symm hx)]; exact h1, h2, rfl, rfl⟩⟩
    show (Dict.set s.binds b.dest [s.objs.length]).get? x = none
    rw [hbinds x hx]; exact h

/-- The recording of an expression of the module `m` at `rs` for the free signal `x`. -/
theorem flow_out (hD : DesignOK D) (hI : Inv D c s) {ls rs x : ScopeChain} {m : ModuleDef} {e : Ex} {ty : Str}
    (hl : ls <+: c) (hl0 : ls ≠ []) (hr : rs <+: c) (hr0 : rs ≠ []) (hm : (rs, m.termTypes) ∈ D) (he : e.flat = true)
    (hf : s.binds.get? x = none) (h : s.addFlow [⟨⟨some x, .none, .none, .none⟩, .none, .none⟩] e ls rs ty = .ok s') :
    Out D c s s' [⟨x, rs, m, .expr e⟩] := by
  have ml := hI.modAt hD hl hl0
  have mr := hI.modAt hD hr hr0
  simp only [BV.addFlow, bind_ok] at h
  obtain ⟨p, hp, raw, hraw, h⟩ := h
  have := ml.path hp
  subst this
  simp only [BV.setDataflow, List.foldlM_cons, List.foldlM_nil, bind_ok, py_pure, ok_inj, List.length_cons, List.length_nil] at h
  obtain ⟨s1, h1, rfl⟩ := h
  simp only [BV.setDataflow1, bind_ok] at h1
  obtain ⟨b, hb, h1⟩ := h1
  simp only [ok_inj] at h1
  simp only [BV.makeBind, bind_ok, bindTree, diffBranchTree, addTree, appendBranchTree, makeBranchTree, ne_eq, not_true_eq_false,
    false_and, if_false, ok_bind, zero_add, gt_iff_lt, Nat.lt_irrefl, ok_inj] at hb
  obtain ⟨t, ht, rfl⟩ := hb
  subst h1
  obtain ⟨k1, k2, k3, k4⟩ := record_one (b := ⟨_, x, .none, .none, .none, ty, none⟩) hI hf ⟨rfl, rfl, rfl⟩
  refine ⟨k1, fun c' _ => k2 c', fun y hy => k3 y (hy ⟨x, rs, m, .expr e⟩ (by simp)), ?_⟩
  intro q hq
  rw [List.mem_singleton] at hq
  subst hq
  refine ⟨_, k4, ⟨rfl, rfl, rfl⟩, rfl, ?_⟩
  intro ρ hρ v hv
  have ha := hI.arrays hρ
  have := mr.getTree ha he hraw (v := v) (by rw [hI.terms.resOf hD hm]; exact hv)
  exact C14_reorder_value ρ ha.1 _ _ _ ht _ this

end

end Pyv
