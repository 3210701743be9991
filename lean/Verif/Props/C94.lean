import Verif.Controlflow
import Verif.Props.DelayProps
import Verif.Props.FsmBuild
import Verif.Props.NbVisit
import Verif.Props.ResetProps
import Verif.Props.ConstFoldSound
/-
  C94: the state machines and loops that are reported.
-/
namespace Pyv

/-! ### Specification -/

/-- The printed path of the signal contains one of the words (in whatever case). -/
def NamedLike (words : List Str) (n : ScopeChain) : Prop :=
  ∃ v ∈ words, v.map Char.toLower <:+: (ScopeChain.repr n).map Char.toLower

/-- The machine has a transition out of a state. -/
def Fsm.Moves (m : Fsm) : Prop := ∃ s c d, m.next? s c = some d

/-- The machine of a signal: built from the functions at the end of its chain of copies, and resolved. -/
structure MachineFor (isReset : DF → Bool) (opt : DF → Py DF) (info : FlowInfo) (n : ScopeChain) (r : Fsm) (k : Nat) (src : ScopeChain) (tree : DF)
    (w : Nat) : Prop where
  chain : CopyChain isReset info.toTermInfo n k src
  clocked : ClockedTerm info.toTermInfo src
  tree_eq : info.tree src = .ok tree
  width_eq : info.width n = .ok w
  machine : machineOf isReset opt n w tree = .ok r

/-! ### Lemmas -/

theorem isFsmVar_iff {words : List Str} (hw : ∀ v ∈ words, v ≠ []) (n : ScopeChain) : isFsmVar words n = true ↔ NamedLike words n := by
  simp only [isFsmVar, List.any_eq_true, NamedLike]
  refine exists_congr fun v => and_congr_right fun hv => ?_
  rw [hasSub_iff _ (by simpa using hw v hv)]

theorem fsmOne_some {isReset opt} {info : FlowInfo} {fuel n} {r : Fsm} {k : Nat} (h : fsmOne isReset opt info fuel n = .ok (some (r, k))) :
    ∃ src tree w, MachineFor isReset opt info n r k src tree w := by
  simp only [fsmOne, bind_ok] at h
  obtain ⟨⟨fd, k'⟩, hx, h⟩ := h
  simp only at h
  split at h
  · simp at h
  · rename_i hne
    simp only [bind_ok] at h
    obtain ⟨w, hw, m, hm, h⟩ := h
    split at h
    · simp only [bind_ok, ok_inj, Option.some.injEq, Prod.mk.injEq] at h
      obtain ⟨r', hr, rfl, rfl⟩ := h
      obtain ⟨k, src, hc, hk⟩ := C69_delay isReset info.toTermInfo fuel n fd k' hx
      rcases hk with ⟨_, rfl, _⟩ | ⟨h1, ⟨t, fd0, ht, hs, rfl⟩, _, rfl⟩
      · exact absurd rfl hne
      · refine ⟨src, t, w, hc, h1, ht, hw, ?_⟩
        simp only [machineOf, hs, hm, ok_bind]
        exact hr
    · simp at h

theorem fsmLoop_get {words isReset opt} {info : FlowInfo} {fuel} : ∀ {ns : List ScopeChain} {d r : Dict ScopeChain (Fsm × Nat)}, ns.Nodup →
    fsmLoop words isReset opt info fuel ns d = .ok r → ∀ n x, r.get? n = some x ↔
      (n ∈ ns ∧ isFsmVar words n = true ∧ fsmOne isReset opt info fuel n = .ok (some x)) ∨
      ((n ∉ ns ∨ isFsmVar words n = false ∨ fsmOne isReset opt info fuel n = .ok none) ∧ d.get? n = some x)
  | [], d, r, _, h, n, x => by
    simp only [fsmLoop, ok_inj] at h
    subst h
    simp
  | m :: ns, d, r, hn, h, n, x => by
    obtain ⟨h1, h2⟩ := List.nodup_cons.mp hn
    rw [fsmLoop] at h
    split at h
    · rename_i hv
      simp only [bind_ok] at h
      obtain ⟨o, ho, h⟩ := h
      rw [fsmLoop_get h2 h n x]
      by_cases e : n = m
      · subst e
        cases o with
        | none => simp [h1, hv, ho]
        | some y => simp [h1, hv, ho, Dict.get?_set]
      · cases o with
        | none => simp [e]
        | some y =>
          have e' : ¬ m = n := fun h => e h.symm
          simp [e, e', Dict.get?_set]
    · rename_i hv
      rw [fsmLoop_get h2 h n x]
      by_cases e : n = m
      · subst e; simp [h1, hv]
      · simp [e]

theorem loopsLoop_get : ∀ {ms : List (ScopeChain × (Fsm × Nat))} {d : Dict ScopeChain (List (List Int))}, (ms.map (·.1)).Nodup →
    (∀ p ∈ ms, d.get? p.1 = none) → ∀ n, (loopsLoop ms d).get? n =
      match Dict.get? ms n with
      | some m => if m.1.getLoop = [] then none else some m.1.getLoop
      | none => d.get? n
  | [], d, _, _, n => by simp [loopsLoop, Dict.get?]
  | (k, m) :: ms, d, hn, hd, n => by
    simp only [List.map_cons, List.nodup_cons] at hn
    have hk : d.get? k = none := hd (k, m) (by simp)
    have hu : setUnion ([] : List (List Int)) m.1.getLoop = m.1.getLoop := by simp [setUnion]
    have hget : Dict.get? ((k, m) :: ms) n = if k = n then some m else Dict.get? ms n := by
      by_cases e : k = n <;> simp [Dict.get?, e]
    rw [loopsLoop, hk, Option.getD_none, hu, loopsLoop_get hn.2, hget]
    · by_cases e : k = n
      · subst e
        have : Dict.get? ms k = none := by
          cases hh : Dict.get? ms k with
          | none => rfl
          | some y => exact absurd (List.mem_map.mpr ⟨_, Dict.mem_of_get? hh, rfl⟩) hn.1
        simp only [this, if_true]
        by_cases hl : m.1.getLoop = []
        · simp [hl, hk]
        · simp [hl, Dict.get?_set]
      · simp only [e, if_false]
        split
        · rfl
        · split
          · rfl
          · simp [Dict.get?_set, e]
    · intro p hp
      have : k ≠ p.1 := by rintro rfl; exact hn.1 (List.mem_map.mpr ⟨p, hp, rfl⟩)
      split
      · exact hd p (List.mem_cons_of_mem _ hp)
      · rw [Dict.get?_set, if_neg this]
        exact hd p (List.mem_cons_of_mem _ hp)

theorem fsmLoop_nodup {words isReset opt} {info : FlowInfo} {fuel} : ∀ {ns : List ScopeChain} {d r : Dict ScopeChain (Fsm × Nat)}, Dict.Nodup d →
    fsmLoop words isReset opt info fuel ns d = .ok r → Dict.Nodup r
  | [], d, r, hd, h => by
    simp only [fsmLoop, ok_inj] at h
    subst h; exact hd
  | m :: ns, d, r, hd, h => by
    rw [fsmLoop] at h
    split at h
    · simp only [bind_ok] at h
      obtain ⟨o, _, h⟩ := h
      refine fsmLoop_nodup ?_ h
      split
      · exact Dict.nodup_set hd _ _
      · exact hd
    · exact fsmLoop_nodup hd h

theorem foldl_size (l : List (Int × DstDict)) : ∀ a : Nat, l.foldl (fun n p => n + p.2.length) a = a + (l.map (fun p => p.2.length)).sum := by
  induction l with
  | nil => simp
  | cons p l ih => intro a; rw [List.foldl_cons, ih]; simp; omega

theorem le_sum_len : ∀ {l : List Nat} {n : Nat}, n ∈ l → n ≤ l.sum
  | a :: l, n, h => by
    rw [List.sum_cons]
    rcases List.mem_cons.mp h with rfl | h
    · omega
    · have := le_sum_len h
      omega

/-- A machine with a transition out of a state has a size. -/
theorem size_of_moves {m : Fsm} (h : m.Moves) : m.size > 0 := by
  obtain ⟨s, c, d, h⟩ := h
  unfold Fsm.next? at h
  simp only [Option.bind_eq_some_iff] at h
  obtain ⟨t, ht, hd⟩ := h
  have hm := Dict.mem_of_get? ht
  have hne := Dict.mem_of_get? hd
  have : t.length ≤ (m.fsm.map (fun p => p.2.length)).sum := le_sum_len (List.mem_map.mpr ⟨_, hm, rfl⟩)
  have := List.length_pos_of_mem hne
  unfold Fsm.size
  rw [foldl_size]
  omega

/-! ### Theorems -/

/-- **C94** A machine is reported for exactly the assigned signals whose name contains a word and that have a machine with transitions. -/
theorem C94_found (words : List Str) (hw : ∀ v ∈ words, v ≠ []) (isReset : DF → Bool) (opt : DF → Py DF) (info : FlowInfo) (hb : info.bound.Nodup)
    (fuel : Nat) (d : Dict ScopeChain (Fsm × Nat)) (h : getFsms words isReset opt info fuel = .ok d) (n : ScopeChain) (r : Fsm) (k : Nat) :
    d.get? n = some (r, k) ↔ n ∈ info.bound ∧ NamedLike words n ∧ fsmOne isReset opt info fuel n = .ok (some (r, k)) := by
  have := fsmLoop_get hb h n (r, k)
  rw [this, isFsmVar_iff hw]
  simp [Dict.get?]

/-- **C94** Whatever is reported is the machine of a clocked register: the one at the end of the chain of copies, whose length is the reported
delay. -/
theorem C94_reported (words : List Str) (hw : ∀ v ∈ words, v ≠ []) (isReset : DF → Bool) (opt : DF → Py DF) (info : FlowInfo) (hb : info.bound.Nodup)
    (fuel : Nat) (d : Dict ScopeChain (Fsm × Nat)) (h : getFsms words isReset opt info fuel = .ok d) (n : ScopeChain) (r : Fsm) (k : Nat)
    (hr : d.get? n = some (r, k)) : n ∈ info.bound ∧ NamedLike words n ∧ ∃ src tree w, MachineFor isReset opt info n r k src tree w := by
  obtain ⟨h1, h2, h3⟩ := (C94_found words hw isReset opt info hb fuel d h n r k).mp hr
  exact ⟨h1, h2, fsmOne_some h3⟩

/-- **C94** None is missed: an assigned signal whose name contains a word, that copies (over fewer registers than Python's stack is deep) a
clocked register, and whose machine has a transition out of a state, is reported. -/
theorem C94_complete (words : List Str) (hw : ∀ v ∈ words, v ≠ []) (isReset : DF → Bool) (opt : DF → Py DF) (info : FlowInfo) (hb : info.bound.Nodup)
    (fuel : Nat) (d : Dict ScopeChain (Fsm × Nat)) (h : getFsms words isReset opt info fuel = .ok d) (n src : ScopeChain) (k : Nat) (fd : FuncDict)
    (w : Nat) (m r : Fsm) (hn : n ∈ info.bound) (hl : NamedLike words n) (hc : CopyChain isReset info.toTermInfo n k src)
    (hs : ClockedTerm info.toTermInfo src) (hf : FunctionsOf isReset info.toTermInfo src fd) (hne : ∀ x, fd ≠ [([], .term x)]) (hfuel : k < fuel)
    (hwd : info.width n = .ok w) (hm : getFsm n w fd = .ok m) (hmv : m.Moves) (hr : m.resolve opt = .ok r) : d.get? n = some (r, k) := by
  rw [C94_found words hw isReset opt info hb fuel d h n r k]
  refine ⟨hn, hl, ?_⟩
  have hg := C69_delay_found isReset info.toTermInfo n src k fd hc hs hf hne fuel hfuel 0
  have hfd : fd ≠ [] := by
    rintro rfl
    simp only [getFsm, sortOn, List.foldr_nil, List.foldlM_nil, py_pure, ok_inj] at hm
    subst hm
    obtain ⟨s, c, x, hx⟩ := hmv
    simp [Fsm.next?, Dict.get?] at hx
  simp only [fsmOne, hg, ok_bind, hfd, if_false, hwd, hm, size_of_moves hmv, if_true, hr, Nat.zero_add]

/-- **C94** Every reported machine says what its register does: in a state and under a valuation out of reset, it allows exactly the next state that
the tree of the register at the end of the chain selects (conditions as in C48). -/
theorem C94_follows_partial (words : List Str) (hw : ∀ v ∈ words, v ≠ []) (isReset : DF → Bool) (opt : DF → Py DF)
    (hopt : ∀ ρ c r, Defined ρ c → opt c = .ok r → Defined ρ r ∧ (Holds ρ r ↔ Holds ρ c)) (info : FlowInfo) (hb : info.bound.Nodup) (fuel : Nat)
    (d : Dict ScopeChain (Fsm × Nat)) (h : getFsms words isReset opt info fuel = .ok d) (n : ScopeChain) (r : Fsm) (k : Nat)
    (hr : d.get? n = some (r, k)) : ∃ src tree w, MachineFor isReset opt info n r k src tree w ∧
      ∀ ρ v fd, StateIs ρ n w v → (∃ c t f, tree = .branch c t f) → NoHollow tree → split tree = .ok fd → OutOfReset isReset ρ fd →
        (∃ e ∈ fd, ∃ c ∈ e.1, isReset c = false) → FsmReadable ρ n w (removeResetCondition isReset fd) →
        ∀ x, r.Steps ρ v x ↔ ∃ w' a b, selectLeaf ρ tree = some (.ev (.int x) w' a b) := by
  obtain ⟨_, _, src, tree, w, hm⟩ := C94_reported words hw isReset opt info hb fuel d h n r k hr
  refine ⟨src, tree, w, hm, ?_⟩
  rintro ρ v fd hs ⟨c, t, f, rfl⟩ hh hf hout hne hrd x
  exact C48_machine_follows_tree_partial isReset opt ρ n w v c t f fd r hs (hopt ρ) hh hf hout hne hrd hm.machine x

/-- **C94** The loops: a signal has loops exactly if its reported machine has, and they are its loops (C24-C26). -/
theorem C94_loops (words : List Str) (isReset : DF → Bool) (opt : DF → Py DF) (info : FlowInfo) (fuel : Nat) (ls : Dict ScopeChain (List (List Int)))
    (d : Dict ScopeChain (Fsm × Nat)) (h : getLoops words isReset opt info fuel = .ok (ls, d)) :
    getFsms words isReset opt info fuel = .ok d ∧
    ∀ n l, ls.get? n = some l ↔ ∃ m k, d.get? n = some (m, k) ∧ l = m.getLoop ∧ l ≠ [] := by
  simp only [getLoops, bind_ok, ok_inj, Prod.mk.injEq] at h
  obtain ⟨d', hd, rfl, rfl⟩ := h
  refine ⟨hd, fun n l => ?_⟩
  have hn : Dict.Nodup d' := fsmLoop_nodup (by simp [Dict.Nodup]) hd
  rw [loopsLoop_get hn (by intro p _; simp [Dict.get?])]
  cases hg : Dict.get? d' n with
  | none => simp [Dict.get?]
  | some m =>
    simp only
    constructor
    · intro hl
      split at hl
      · cases hl
      · rename_i hne
        simp only [Option.some.injEq] at hl
        subst hl
        exact ⟨m.1, m.2, rfl, rfl, hne⟩
    · rintro ⟨m', k, hm, rfl, hne⟩
      simp only [Option.some.injEq] at hm
      subst hm
      simp [hne]

/-- **C94** The width of a state register is that of its declared range, if the bounds fold to constants. -/
theorem C94_width (terms : Dict ScopeChain Term) (ctx : OptCtx) (ρ : Env) (hag : Agrees ctx ρ) (fuel : Nat) (n : ScopeChain) (t : Term)
    (ht : terms.get? n = some t) (m l : DF) (hm : ctx.optConst fuel t.msb = .ok m) (hl : ctx.optConst fuel t.lsb = .ok l)
    (em : m.isEv = true) (el : l.isEv = true) (fm : Frag ctx ρ false t.msb) (fl : Frag ctx ρ false t.lsb) (a b : Int × Int)
    (ha : sem ρ t.msb = some a) (hb : sem ρ t.lsb = some b) (w : Nat) (h : flowWidth terms ctx fuel n = .ok w) :
    w = (a.1 - b.1).natAbs + 1 := by
  obtain ⟨_, ha'⟩ := C07_optimizeConstant_value_partial ctx ρ hag fuel _ m fm hm a ha
  obtain ⟨_, hb'⟩ := C07_optimizeConstant_value_partial ctx ρ hag fuel _ l fl hl b hb
  obtain ⟨wm, am, bm, rfl, _⟩ := sem_isEv em ha'
  obtain ⟨wl, al, bl, rfl, _⟩ := sem_isEv el hb'
  simp only [flowWidth, ht, hm, hl, ok_bind] at h
  rw [if_pos ⟨by simp, by simp⟩] at h
  simp only [bind_ok, ok_inj] at h
  obtain ⟨d, hd, v, hv, rfl⟩ := h
  cases fuel with
  | zero => simp [OptCtx.optConst] at hd
  | succ k =>
    cases k with
    | zero => simp [OptCtx.optConst, List.mapM_cons] at hd; revert hd; simp [bind, Except.bind]
    | succ k =>
      have h1 : ∀ x y z u, ctx.optConst (k + 1) (.ev (.int x) y z u) = .ok (.ev (.int x) y z u) := by
        intro x y z u; simp [OptCtx.optConst]
      rw [OptCtx.optConst] at hd
      simp only [List.mapM_cons, List.mapM_nil, h1, ok_bind, py_pure] at hd
      simp only [List.all_cons, List.all_nil, DF.isEv, Bool.and_self, if_true] at hd
      have h2 : evInts [.ev (.int a.1) wm am bm, .ev (.int b.1) wl al bl] = .ok [a.1, b.1] := rfl
      simp only [evalOperator, bind_ok, h2, ok_inj] at hd
      obtain ⟨x, _, vs, rfl, y, hy, rfl⟩ := hd
      simp only [evalOpInt, ok_inj] at hy
      subst hy
      simp only [DF.intAttr, DF.valueAttr, PyVal.toInt, ok_bind, ok_inj] at hv
      subst hv
      rfl

/-- **C94** Without a declared range, the width is 32. -/
theorem C94_width_default (terms : Dict ScopeChain Term) (ctx : OptCtx) (fuel : Nat) (n : ScopeChain) (t : Term) (ht : terms.get? n = some t)
    (h : t.msb = .none ∧ t.lsb = .none) : flowWidth terms ctx (fuel + 1) n = .ok 32 := by
  simp [flowWidth, ht, h.1, h.2, OptCtx.optConst, ok_bind]

/-- **C94** The whole path counts: every signal below an instance or block whose name contains a word is taken for a state register. -/
theorem C94_path (words : List Str) (n : ScopeChain) (l : ScopeLabel) (hl : l ∈ n) (v : Str) (hv : v ∈ words)
    (h : v.map Char.toLower <:+: l.name.map Char.toLower) : NamedLike words n := by
  refine ⟨v, hv, h.trans ?_⟩
  have h1 : l.name <:+: ScopeLabel.repr l := by
    unfold ScopeLabel.repr
    cases l.loop with
    | none => exact List.infix_refl _
    | some k => exact (List.IsPrefix.trans (List.prefix_append l.name ('[' :: intStr k)) (List.prefix_append _ [']'])).isInfix
  have h2 : ∀ ss : List Str, ∀ s ∈ ss, s <:+: dotJoin ss := by
    intro ss
    induction ss with
    | nil => simp
    | cons a ss ih =>
      intro s hs
      cases ss with
      | nil =>
        simp only [List.mem_singleton] at hs
        subst hs
        simp [dotJoin]
      | cons b ss =>
        rw [dotJoin]
        rcases List.mem_cons.mp hs with rfl | hs
        · exact (List.prefix_append _ _).isInfix
        · exact (ih s hs).trans ((List.suffix_append_of_suffix (List.suffix_cons _ _)).isInfix)
        · simp
  exact (h1.trans (h2 _ _ (List.mem_map.mpr ⟨l, hl, rfl⟩))).map _

/-- **C94** A machine all of whose transitions are possible in every state (the next state does not depend on the state) is never reported. -/
theorem C94_any_not_reported (words : List Str) (isReset : DF → Bool) (opt : DF → Py DF) (info : FlowInfo) (hb : info.bound.Nodup) (fuel : Nat)
    (d : Dict ScopeChain (Fsm × Nat)) (h : getFsms words isReset opt info fuel = .ok d) (n : ScopeChain) (fd : FuncDict) (k w : Nat)
    (hf : getFuncdict isReset info.toTermInfo fuel n 0 = .ok (fd, k)) (hw : info.width n = .ok w) (m : Fsm) (hm : getFsm n w fd = .ok m)
    (he : m.fsm = []) : d.get? n = none := by
  cases hg : d.get? n with
  | none => rfl
  | some x =>
    rcases (fsmLoop_get hb h n x).mp hg with ⟨_, _, h1⟩ | ⟨_, h1⟩
    · simp only [fsmOne, hf, ok_bind, hw, hm] at h1
      split at h1
      · simp at h1
      · simp [Fsm.size, he] at h1
    · simp [Dict.get?] at h1

/-! ### Non-vacuity -/

def c94words : List Str := [['S']]
/-- `s <= (s == 1) ? (d ? 2 : 0) : 3`. -/
def c94info : FlowInfo :=
  { isRename := fun _ => .ok false, isClock := fun _ => .ok true, tree := fun _ => .ok c48t, bound := [c23s, c23d], width := fun _ => .ok 2 }
/-- `s <= d ? 1 : 2`. -/
def c94any : FlowInfo :=
  { c94info with tree := fun _ => .ok (.branch (.term c23d) (.evi 1 (some 32)) (.evi 2 (some 32))) }

theorem c94_words : ∀ v ∈ c94words, v ≠ [] := by simp [c94words]
theorem c94_bound : c94info.bound.Nodup := by decide
theorem c94_found : ∃ d r, getFsms c94words (fun _ => false) .ok c94info 5 = .ok d ∧ d.get? c23s = some (r, 0) ∧ r.getLoop ≠ [] := by
  cases h : getFsms c94words (fun _ => false) .ok c94info 5 with
  | error e =>
    have : (match getFsms c94words (fun _ => false) .ok c94info 5 with | .ok _ => true | .error _ => false) = true := by decide +kernel
    rw [h] at this
    exact absurd this (by simp)
  | ok d =>
    have : (match getFsms c94words (fun _ => false) .ok c94info 5 with
      | .ok d => (match d.get? c23s with | some (r, 0) => decide (r.getLoop ≠ []) | _ => false) | .error _ => false) = true := by decide +kernel
    rw [h] at this
    simp only at this
    cases hg : d.get? c23s with
    | none => rw [hg] at this; simp at this
    | some x =>
      obtain ⟨r, k⟩ := x
      rw [hg] at this
      cases k with
      | zero => exact ⟨d, r, rfl, hg, by simpa using this⟩
      | succ k => simp at this

/-- The signal `d` does not have an `S` in its name: it is not reported. -/
example : ∃ d, getFsms c94words (fun _ => false) .ok c94info 5 = .ok d ∧ d.get? c23d = none ∧ d.get? c23s ≠ none := by
  obtain ⟨d, r, h, hr, _⟩ := c94_found
  refine ⟨d, h, ?_, by simp [hr]⟩
  cases hg : d.get? c23d with
  | none => rfl
  | some x =>
    obtain ⟨_, hl, _⟩ := (C94_found _ c94_words _ _ _ c94_bound _ d h c23d x.1 x.2).mp hg
    have := (isFsmVar_iff c94_words c23d).mpr hl
    exact absurd this (by decide)

example : ∃ d, getFsms c94words (fun _ => false) .ok c94info 5 = .ok d ∧ ∃ r k src tree w, d.get? c23s = some (r, k) ∧
    MachineFor (fun _ => false) .ok c94info c23s r k src tree w := by
  obtain ⟨d, r, h, hr, _⟩ := c94_found
  obtain ⟨_, _, src, tree, w, hm⟩ := C94_reported _ c94_words _ _ _ c94_bound _ d h c23s r 0 hr
  exact ⟨d, h, r, 0, src, tree, w, hr, hm⟩

example : ∃ ls d, getLoops c94words (fun _ => false) .ok c94info 5 = .ok (ls, d) ∧ ∃ l, ls.get? c23s = some l ∧ l ≠ [] := by
  obtain ⟨d, r, h, hr, hl⟩ := c94_found
  have hg : getLoops c94words (fun _ => false) .ok c94info 5 = .ok (loopsLoop d [], d) := by simp [getLoops, h, ok_bind]
  exact ⟨_, d, hg, r.getLoop, ((C94_loops _ _ _ _ _ _ _ hg).2 c23s _).mpr ⟨r, 0, hr, rfl, hl⟩, hl⟩

example : NamedLike fsmVars [⟨"counter0".toList, .module, none⟩, ⟨"q".toList, .signal, none⟩] :=
  C94_path _ _ ⟨"counter0".toList, .module, none⟩ (by simp) "count".toList (by simp [fsmVars]) ⟨[], "er0".toList, by decide⟩

/-- A register called `st` is not searched. -/
example : isFsmVar fsmVars [⟨"top".toList, .module, none⟩, ⟨"st".toList, .signal, none⟩] = false := by decide

/-- What C94_complete asks for. -/
example : ∃ d m r, getFsms c94words (fun _ => false) .ok c94info 5 = .ok d ∧ c23s ∈ c94info.bound ∧ NamedLike c94words c23s ∧
    CopyChain (fun _ => false) c94info.toTermInfo c23s 0 c23s ∧ ClockedTerm c94info.toTermInfo c23s ∧
    FunctionsOf (fun _ => false) c94info.toTermInfo c23s c48fd ∧ (∀ x, c48fd ≠ [([], .term x)]) ∧ getFsm c23s 2 c48fd = .ok m ∧ m.Moves ∧
    m.resolve .ok = .ok r ∧ d.get? c23s = some (r, 0) := by
  obtain ⟨d, r, h, hr, _⟩ := c94_found
  have hl : NamedLike c94words c23s := (isFsmVar_iff c94_words c23s).mp (by decide)
  have hfn : FunctionsOf (fun _ => false) c94info.toTermInfo c23s c48fd := ⟨c48t, c48fd, rfl, by decide +kernel, by decide +kernel⟩
  cases hm : getFsm c23s 2 c48fd with
  | error e =>
    have : (match getFsm c23s 2 c48fd with | .ok _ => true | .error _ => false) = true := by decide +kernel
    rw [hm] at this
    exact absurd this (by simp)
  | ok m =>
    have hmv : m.Moves := by
      have : (match getFsm c23s 2 c48fd with | .ok m => m.fsm.any (fun p => p.2.any (fun q => (m.next? p.1 q.1).isSome)) | .error _ => false) = true := by decide +kernel
      rw [hm] at this
      simp only [List.any_eq_true] at this
      obtain ⟨p, _, q, _, hq⟩ := this
      obtain ⟨x, hx⟩ := Option.isSome_iff_exists.mp hq
      exact ⟨_, _, x, hx⟩
    cases hrr : m.resolve .ok with
    | error e =>
      have : (match getFsm c23s 2 c48fd with | .ok m => (match m.resolve .ok with | .ok _ => true | .error _ => false) | .error _ => false) = true := by
        decide +kernel
      rw [hm] at this
      simp only [hrr] at this
      exact absurd this (by simp)
    | ok r' =>
      have hne : ∀ x, c48fd ≠ [([], .term x)] := by intro x; simp [c48fd]
      have hc : CopyChain (fun _ => false) c94info.toTermInfo c23s 0 c23s := .here _
      exact ⟨d, m, r', h, by decide, hl, hc, ⟨rfl, rfl⟩, hfn, hne, rfl, hmv, hrr,
        C94_complete _ c94_words _ _ _ c94_bound _ d h c23s c23s 0 c48fd 2 m r' (by decide) hl hc ⟨rfl, rfl⟩ hfn hne (by decide) rfl hm hmv hrr⟩

/-- What C94_follows_partial asks for: in state 1 with `d = 1`, the reported machine goes to 2. -/
example : ∃ d r, getFsms c94words (fun _ => false) .ok c94info 5 = .ok d ∧ d.get? c23s = some (r, 0) ∧ r.Steps (c23env 1 1) 1 2 := by
  obtain ⟨d, r, h, hr, _⟩ := c94_found
  obtain ⟨src, tree, w, hm, hs⟩ := C94_follows_partial _ c94_words (fun _ => false) .ok
    (by intro ρ c r hd hr; simp only [ok_inj] at hr; subst hr; exact ⟨hd, Iff.rfl⟩) _ c94_bound _ d h c23s r 0 hr
  have ht := hm.tree_eq
  have hw := hm.width_eq
  simp only [c94info, ok_inj] at ht hw
  subst ht hw
  have hrem : removeResetCondition (fun _ => false) c48fd = c48fd := by decide +kernel
  refine ⟨d, r, h, hr, (hs (c23env 1 1) 1 c48fd ⟨⟨2, by simp [c23env]⟩, by decide, by decide⟩ ⟨_, _, _, rfl⟩
    (by simp [c48t, NoHollow, HasLeaf, DF.evi]) (by decide +kernel) ?_ ⟨_, List.mem_cons_self .., _, List.mem_cons_self .., rfl⟩
    (by rw [hrem]; exact c48_readable) 2).mpr ⟨some 32, false, false, ?_⟩⟩
  · refine ⟨?_, fun e _ _ c _ hx => by simp at hx⟩
    intro e he ha
    have : ∃ c, c ∈ e.1 := by
      simp only [c48fd, List.mem_cons, List.not_mem_nil, or_false] at he
      rcases he with rfl | rfl | rfl <;> exact ⟨_, List.mem_cons_self ..⟩
    obtain ⟨c, hc⟩ := this
    exact absurd (ha c hc) (by simp)
  · simp [selectLeaf, c48t, c48c, sem, semList, c23env, c23s, c23d, DF.evi, opSem, b2i]

def c94fd : FuncDict := [([.term c23d], .evi 1 (some 32)), ([.op .ulnot [.term c23d]], .evi 2 (some 32))]

/-- **C94** `s <= d ? 1 : 2` has transitions, but is not reported. -/
theorem C94_any_witness : ∃ d m, getFsms c94words (fun _ => false) .ok c94any 5 = .ok d ∧
    getFuncdict (fun _ => false) c94any.toTermInfo 5 c23s 0 = .ok (c94fd, 0) ∧ getFsm c23s 2 c94fd = .ok m ∧ m.any ≠ [] ∧ m.fsm = [] ∧
    d.get? c23s = none := by
  have hf : getFuncdict (fun _ => false) c94any.toTermInfo 5 c23s 0 = .ok (c94fd, 0) := by decide +kernel
  cases h : getFsms c94words (fun _ => false) .ok c94any 5 with
  | error e =>
    have : (match getFsms c94words (fun _ => false) .ok c94any 5 with | .ok _ => true | .error _ => false) = true := by decide +kernel
    rw [h] at this
    exact absurd this (by simp)
  | ok d =>
    cases hm : getFsm c23s 2 c94fd with
    | error e =>
      have : (match getFsm c23s 2 c94fd with | .ok _ => true | .error _ => false) = true := by decide +kernel
      rw [hm] at this
      exact absurd this (by simp)
    | ok m =>
      have : (match getFsm c23s 2 c94fd with | .ok m => m.fsm.isEmpty && !m.any.isEmpty | .error _ => false) = true := by decide +kernel
      rw [hm] at this
      simp only [Bool.and_eq_true, List.isEmpty_iff, Bool.not_eq_true', List.isEmpty_eq_false_iff] at this
      exact ⟨d, m, rfl, hf, rfl, this.2, this.1,
        C94_any_not_reported _ _ _ c94any c94_bound _ d h c23s c94fd 0 2 hf rfl m hm this.1⟩

/-- `reg [3:0] s`: 4 bits. -/
example : flowWidth [(c23s, ⟨c23s, [], .intc ['3'], .intc ['0'], none⟩)] ⟨[], [], 32, fun _ => none⟩ 3 c23s = .ok 4 := by
  decide +kernel

end Pyv
