import Verif.Props.ElabStep
import Mathlib.Data.List.Dedup
/-
  C75: always blocks in the traversal of a design.
-/
namespace Pyv

section
variable {D : Decls} {c : ScopeChain} {s s' : BV} {m : ModuleDef} {over : List Str}

theorem wholeL_iff {ns : List Str} {ss : List Stmt} : Stmt.wholeL ns ss = true ↔ ∀ st ∈ ss, st.whole ns = true := by
  induction ss with
  | nil => simp [Stmt.wholeL]
  | cons a ss ih => simp [Stmt.wholeL, ih]

theorem whole_plain (sc x : ScopeChain) (st : Stmt) : st.whole m.names = true → st.plain (m.resAt sc) x = true := by
  induction st using Stmt.ind with
  | skip => intro _; rfl
  | nb l r =>
    intro h
    unfold Stmt.whole at h
    split at h
    · rename_i he; cases he
    · rename_i n r' he
      injection he with h1 h2
      subst h1 h2
      simp only [Bool.and_eq_true, decide_eq_true_eq] at h
      simp only [Stmt.plain, destOK, isWhole, baseName, ModuleDef.resAt, if_pos h.1, h.2, Bool.and_true]
      by_cases e : sigAt sc n = x <;> simp [e]
    all_goals first | cases h | (rename_i he; cases he)
  | ba l r => intro h; simp [Stmt.whole] at h
  | ifs c t f iht ihf =>
    intro h
    simp only [Stmt.whole, Bool.and_eq_true] at h
    simp [Stmt.plain, h.1.1, iht h.1.2, ihf h.2]
  | cases k comp cs bs ih =>
    intro h
    simp only [Stmt.whole, Bool.and_eq_true] at h
    simp only [Stmt.plain, Bool.and_eq_true]
    exact ⟨h.1, plainL_iff.mpr (fun st hs => ih st hs (wholeL_iff.mp h.2 st hs))⟩
  | block n ss ih =>
    intro h
    simp only [Stmt.whole] at h
    simp only [Stmt.plain]
    exact plainL_iff.mpr (fun st hs => ih st hs (wholeL_iff.mp h st hs))
  | fors a b c d e st _ => intro h; simp [Stmt.whole] at h
  | whiles c st _ => intro h; simp [Stmt.whole] at h

theorem regsL_iff {n : Str} {ss : List Stmt} : n ∈ Stmt.regsL ss ↔ ∃ st ∈ ss, n ∈ st.regs := by
  induction ss with
  | nil => simp [Stmt.regsL]
  | cons a ss ih => simp [Stmt.regsL, ih]

theorem assigns_regs {res : Str → Option ScopeChain} {x : ScopeChain} (st : Stmt) : st.assigns res x = true → ∃ n ∈ st.regs, res n = some x := by
  have hl : ∀ ss : List Stmt, (∀ st ∈ ss, st.assigns res x = true → ∃ n ∈ st.regs, res n = some x) → Stmt.assignsL res x ss = true →
      ∃ n ∈ Stmt.regsL ss, res n = some x := by
    intro ss h hs
    by_contra hh
    have : Stmt.assignsL res x ss = false := assignsL_iff.mpr (fun st hst => by
      rw [Bool.eq_false_iff]
      intro ha
      obtain ⟨n, h1, h2⟩ := h st hst ha
      exact hh ⟨n, regsL_iff.mpr ⟨st, hst, h1⟩, h2⟩)
    rw [this] at hs
    cases hs
  induction st using Stmt.ind with
  | skip => intro h; simp [Stmt.assigns] at h
  | nb l r =>
    intro h
    simp only [Stmt.assigns] at h
    unfold isWhole at h
    split at h
    · simp only [decide_eq_true_eq] at h
      exact ⟨_, by simp [Stmt.regs], h⟩
    · cases h
  | ba l r => intro h; simp [Stmt.assigns] at h
  | ifs c t f iht ihf =>
    intro h
    simp only [Stmt.assigns, Bool.or_eq_true] at h
    simp only [Stmt.regs, List.mem_append]
    rcases h with h | h
    · obtain ⟨n, h1, h2⟩ := iht h; exact ⟨n, .inl h1, h2⟩
    · obtain ⟨n, h1, h2⟩ := ihf h; exact ⟨n, .inr h1, h2⟩
  | cases k comp cs bs ih => intro h; simp only [Stmt.assigns] at h; simp only [Stmt.regs]; exact hl bs ih h
  | block n ss ih => intro h; simp only [Stmt.assigns] at h; simp only [Stmt.regs]; exact hl ss ih h
  | fors a b c d e st _ => intro h; simp [Stmt.assigns] at h
  | whiles c st _ => intro h; simp [Stmt.assigns] at h

section
variable {res res' : Str → Option ScopeChain} {x x' : ScopeChain}

theorem isWhole_congr (h : ∀ n, res n = some x ↔ res' n = some x') (l : Ex) : isWhole res x l = isWhole res' x' l := by
  unfold isWhole
  split
  · rename_i n; rw [Bool.eq_iff_iff]; simp [h n]
  · rfl

theorem destOK_congr (h : ∀ n, res n = some x ↔ res' n = some x') (hn : ∀ n, res n = none ↔ res' n = none) (l : Ex) :
    destOK res x l = destOK res' x' l := by
  unfold destOK
  rw [isWhole_congr h l]
  congr 1
  cases baseName l with
  | none => rfl
  | some n =>
    cases e : res n with
    | none => simp only [e, (hn n).mp e]
    | some y =>
      cases e' : res' n with
      | none => rw [(hn n).mpr e'] at e; cases e
      | some y' =>
        have := h n
        rw [e, e', Option.some.injEq, Option.some.injEq] at this
        simp only [e, e']
        simp [this]

theorem assigns_congr (h : ∀ n, res n = some x ↔ res' n = some x') (st : Stmt) : st.assigns res x = st.assigns res' x' := by
  have hl : ∀ ss : List Stmt, (∀ st ∈ ss, st.assigns res x = st.assigns res' x') → Stmt.assignsL res x ss = Stmt.assignsL res' x' ss := by
    intro ss
    induction ss with
    | nil => intro _; rfl
    | cons a ss ih => intro hh; simp only [Stmt.assignsL, hh a (by simp), ih (fun st hs => hh st (by simp [hs]))]
  induction st using Stmt.ind with
  | nb l r => simp only [Stmt.assigns, isWhole_congr h l]
  | ifs c t f iht ihf => simp only [Stmt.assigns, iht, ihf]
  | cases k comp cs bs ih => simp only [Stmt.assigns, hl bs ih]
  | block n ss ih => simp only [Stmt.assigns, hl ss ih]
  | _ => simp only [Stmt.assigns]

theorem assignsL_congr (h : ∀ n, res n = some x ↔ res' n = some x') (ss : List Stmt) : Stmt.assignsL res x ss = Stmt.assignsL res' x' ss := by
  induction ss with
  | nil => rfl
  | cons a ss ih => simp only [Stmt.assignsL, assigns_congr h a, ih]

theorem chk_congr (h : ∀ n, res n = some x ↔ res' n = some x') (hn : ∀ n, res n = none ↔ res' n = none) (st : Stmt) :
    ∀ a, st.chk res x a = st.chk res' x' a := by
  have hl : ∀ ss : List Stmt, (∀ st ∈ ss, ∀ a, st.chk res x a = st.chk res' x' a) → ∀ a, Stmt.chkList res x ss a = Stmt.chkList res' x' ss a := by
    intro ss
    induction ss with
    | nil => intro _ a; rfl
    | cons b ss ih =>
      intro hh a
      simp only [Stmt.chkList, hh b (by simp)]
      congr 1
      funext a'
      exact ih (fun st hs => hh st (by simp [hs])) a'
  have hc : ∀ ss : List Stmt, (∀ st ∈ ss, ∀ a, st.chk res x a = st.chk res' x' a) → ∀ a, Stmt.chkCases res x ss a = Stmt.chkCases res' x' ss a := by
    intro ss
    induction ss with
    | nil => intro _ a; rfl
    | cons b ss ih =>
      intro hh a
      simp only [Stmt.chkCases, hh b (by simp), assigns_congr h b]
      simp only [ih (fun st hs => hh st (by simp [hs]))]
  induction st using Stmt.ind with
  | nb l r => intro a; simp only [Stmt.chk, isWhole_congr h l, destOK_congr h hn l]
  | ifs c t f iht ihf => intro a; simp only [Stmt.chk, iht, ihf, assigns_congr h]
  | cases k comp cs bs ih => intro a; simp only [Stmt.chk, hc bs ih, assignsL_congr h]
  | block n ss ih => intro a; simp only [Stmt.chk, hl ss ih, assignsL_congr h]
  | _ => intro a; simp only [Stmt.chk]

end

theorem chk_scope (sc : ScopeChain) (n : Str) (st : Stmt) (a : NbSt) :
    st.chk (m.resAt sc) (sigAt sc n) a = st.chk (m.resAt []) (sigAt [] n) a := by
  refine chk_congr (fun k => ?_) (fun k => ?_) st a
  · unfold ModuleDef.resAt
    split
    · simp only [Option.some.injEq]
      constructor
      · intro h; rw [(sigAt_inj h).2]
      · intro h; rw [(sigAt_inj h).2]
    · simp
  · unfold ModuleDef.resAt
    split <;> simp

/-- A block that is accepted has events on names. -/
theorem events_of_fold (s : BV) (scope : ScopeChain) (ls : List Sens) : ∀ st r, ls.foldlM (s.sensStep scope) st = .ok r → ∃ es, eventsOf ls = .ok es := by
  induction ls with
  | nil => intro _ _ _; exact ⟨[], rfl⟩
  | cons l ls ih =>
    intro st r h
    simp only [List.foldlM_cons, bind_ok] at h
    obtain ⟨st1, h1, h⟩ := h
    obtain ⟨es, hes⟩ := ih _ _ h
    cases hs : l.sig with
    | none => exact ⟨es, by simp only [eventsOf, hs, hes]⟩
    | some e =>
      simp only [BV.sensStep, hs, bind_ok] at h1
      obtain ⟨nb, hnb, _⟩ := h1
      exact ⟨(nb.1, nb.2, l.type) :: es, by simp only [eventsOf, hs, hnb, ok_bind, hes]⟩

theorem info_describes (s : BV) (scope : ScopeChain) (ls : List Sens) (info : AlwaysInfo) (look : Str → Option ScopeChain)
    (hl : ∀ n, s.searchTerminal n scope = .ok (look n)) (h : s.alwaysInfo scope ls = .ok info) :
    ∃ es, eventsOf ls = .ok es ∧ Describes (fun n => .ok (look n)) es info := by
  have h' := h
  simp only [BV.alwaysInfo, bind_ok] at h'
  obtain ⟨r, hr, _⟩ := h'
  obtain ⟨es, hes⟩ := events_of_fold s scope ls _ _ hr
  obtain ⟨c1, c2⟩ := C59_clock_and_reset s scope ls es hes (fun n => ⟨_, hl n⟩)
  refine ⟨es, hes, ?_⟩
  cases hb : ((es.any isClockEvent || es.any isResetEvent) && es.any isOtherEvent) with
  | true => rw [c1 hb] at h; cases h
  | false =>
    obtain ⟨i, h1, h2⟩ := c2 hb
    rw [h1, ok_inj] at h
    subst h
    have : (fun n => s.searchTerminal n scope) = fun n => .ok (look n) := funext hl
    rw [this] at h2
    exact h2

theorem always_frames {ls : List Sens} {body : Stmt} {x : ScopeChain} (hm : s.AtModule c) (hp : body.plain (resOf s.terms c) x = true)
    (hx : s.binds.get? x = none ∨ ∃ i b, s.binds.get? x = some [i] ∧ s.objs[i]? = some b ∧ b.whole)
    (h : s.visitAlways ls body = .ok s') : ∀ c', ¬ (c <+: c' ∧ c' ≠ c) → s'.frames.get? c' = s.frames.get? c' := by
  obtain ⟨s1, info, l, hi, q1, q2, q3, q4, q5, q6, q7, s2, h2, rfl⟩ := always_sim hm h
  have hw : s1.WF c x ⟨info, fun _ => True, False⟩ := by
    refine ⟨by rw [q1.terms]; exact hm.flat, by rw [q1.noreorder]; exact hm.nore, by rw [q2, q3]; exact hm.objs, ?_, fun h => h.elim⟩
    intro ids hids
    rw [q2] at hids
    rw [q3]
    rcases hx with hx | ⟨i, b, h1, h2, h3⟩
    · rw [hx] at hids; cases hids
    · rw [h1] at hids; cases hids; exact ⟨i, b, rfl, h2, h3, trivial⟩
  obtain ⟨w, -⟩ := visit_sim s body hp (fun _ => trivial) s1 s2 _ [] q1 q4 (q6 x _ _) hw h2
  intro c' hc'
  have hn : ¬ (c ++ [l]) <+: c' := by
    intro hpre
    refine hc' ⟨(List.prefix_append c [l]).trans hpre, ?_⟩
    rintro rfl
    exact not_prefix_snoc (List.prefix_refl _) hpre
  show s2.frames.get? c' = _
  rw [w.frames c' hn]
  exact q5 c' (by rintro rfl; exact hn (List.prefix_refl _))

/-- Always blocks. -/
theorem always_does (hD : DesignOK D) (hm : (c, m.termTypes) ∈ D) {ls : List Sens} {body : Stmt} (hw : body.whole m.names = true)
    (hc : ∀ n ∈ body.regs, (body.chk (m.resAt []) (sigAt [] n) .fresh).isSome = true) :
    Does D c over (fun s => s.visitAlways ls body) (body.regs.dedup.map (fun n => ⟨sigAt c n, c, m, .block ls body⟩)) := by
  intro s s' hI hfree _ h
  have hmod : s.AtModule c := ⟨hI.modAt hD (List.prefix_refl c) hI.ne, hI.cur, hI.objs⟩
  have hres : resOf s.terms c = m.resAt c := hI.terms.resOf hD hm
  have hp : ∀ x, body.plain (resOf s.terms c) x = true := fun x => by rw [hres]; exact whole_plain c x body hw
  have hx : ∀ x, s.binds.get? x = none ∨ ∃ i b, s.binds.get? x = some [i] ∧ s.objs[i]? = some b ∧ b.whole := by
    intro x
    rcases hI.single x with h | ⟨b, h1, h2⟩
    · exact .inl h
    · obtain ⟨i, e1, e2⟩ := bindlist_one hmod h1
      exact .inr ⟨i, b, e1, e2, h2⟩
  obtain ⟨a1, a2, _⟩ := always_module (x := []) hmod (hp []) (hx []) h
  have hfr := always_frames (x := []) hmod (hp []) (hx []) h
  have hsingle : ∀ x, s'.binds.get? x = none ∨ ∃ i b, s'.binds.get? x = some [i] ∧ s'.objs[i]? = some b ∧ b.whole :=
    fun x => (always_module (x := x) hmod (hp x) (hx x) h).2.2
  have hsingle' : ∀ x, s'.binds.get? x = none ∨ ∃ b, s'.getBindlist x = [b] ∧ b.whole := by
    intro x
    rcases hsingle x with h | ⟨i, b, h1, h2, h3⟩
    · exact .inl h
    · exact .inr ⟨b, by simp [BV.getBindlist, h1, BV.deref, h2], h3⟩
  have hI' : Inv D c s' := by
    refine ⟨a1.current, hI.ne, ?_, a1.nore, a1.objs, by rw [a2.terms]; exact hI.terms, hsingle'⟩
    intro c' hc' hne
    unfold isModFrame
    rw [hfr c' (fun hh => hh.2 (hc'.eq_of_length (Nat.le_antisymm hc'.length_le hh.1.length_le)))]
    exact hI.frames c' hc' hne
  refine ⟨hI', hfr, ?_, ?_⟩
  · intro x hxt
    have hna : body.assigns (resOf s.terms c) x = false := by
      rw [Bool.eq_false_iff]
      intro ha
      obtain ⟨n, hn, hr⟩ := assigns_regs body ha
      rw [hres] at hr
      unfold ModuleDef.resAt at hr
      split at hr
      · cases hr
        exact hxt ⟨sigAt c n, c, m, .block ls body⟩ (List.mem_map.mpr ⟨n, List.mem_dedup.mpr hn, rfl⟩) rfl
      · cases hr
    refine ⟨fun hn => ?_, fun b hb hw => ?_⟩
    · have := C58_nonblocking_noassign s s' c x ls body hmod hn (hp x) hna h
      exact hI'.empty this
    · exact C58_other_block_partial s s' c x ls body hmod b hb hw (hp x) hna h
  · intro q hq
    obtain ⟨n, hn, rfl⟩ := List.mem_map.mp hq
    have hchk : (body.chk (resOf s.terms c) (sigAt c n) .fresh).isSome = true := by
      rw [hres, chk_scope]
      exact hc n (List.mem_dedup.mp hn)
    obtain ⟨-, hr⟩ := C58_nonblocking_partial s s' c (sigAt c n) ls body hmod (hfree _ hq) (hp _) hchk h
    have hqres : (⟨sigAt c n, c, m, .block ls body⟩ : Eqn).res = m.resAt c := rfl
    show (_ ∨ _)
    rw [hqres]
    rw [hres] at hr
    rcases hr with ⟨r1, r2⟩ | ⟨b, r1, r2, ⟨info, r3, r4⟩, r5⟩
    · exact .inl ⟨r1, fun ρ hρ => r2 ρ (hI.arrays hρ)⟩
    · obtain ⟨es, e1, e2⟩ := info_describes s c ls info (m.resAt c)
        (fun k => search_name hD hI (List.prefix_refl c) hI.ne hm k) r3
      exact .inr ⟨b, r1, r2, ⟨es, info, e1, r4, e2⟩, fun ρ hρ => r5 ρ (hI.arrays hρ)⟩

end

end Pyv
