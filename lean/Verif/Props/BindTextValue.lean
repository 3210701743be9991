import Verif.Props.BindText
import Verif.Props.BindTreeProps
import Verif.Props.BaSpec
import Verif.Props.WalkValue
/-
  C78, values: what the item read back from the text of an assignment assigns.
-/
namespace Pyv

/-! ## Literals -/

/-- The text of a sized decimal literal. -/
theorem sized_literal {w : Option Int} {ws : Str} (h : WidthText w ws) (n : Nat) :
    ∃ z : Int, w = some z ∧ 0 ≤ z ∧ intConstEval (ws ++ '\'' :: 'd' :: natStr n) = .ok (n : Int) ∧
      intConstWidth (ws ++ '\'' :: 'd' :: natStr n) = .ok z := by
  obtain ⟨ds, hs, hp⟩ := natStr_spells n
  have key : ∀ szs, ((ws = [] ∧ szs = []) ∨ Spells 10 ws szs) → (∀ c ∈ ws, c ≠ '_') →
      intConstEval (ws ++ '\'' :: 'd' :: natStr n) = .ok (n : Int) ∧
      intConstWidth (ws ++ '\'' :: 'd' :: natStr n) = .ok (BasedLiteral.declaredWidth szs : Int) := by
    intro szs h1 h2
    have hwf : BasedLiteral.Wf ⟨ws, [], .dec, 'd', natStr n⟩ szs ds := ⟨h1, h2, by simp, by simp [Base.letters], hs⟩
    have e1 := C04_based_literal _ _ _ hwf
    have e2 := C05_literal_width_partial _ _ _ hwf rfl
    simp only [BasedLiteral.text, List.nil_append, Base.radix, hp] at e1 e2
    exact ⟨e1, e2⟩
  rcases h with ⟨rfl, rfl⟩ | ⟨k, _, rfl, rfl⟩
  · have := key [] (.inl ⟨rfl, rfl⟩) (by simp)
    exact ⟨32, rfl, by omega, this.1, this.2⟩
  · obtain ⟨szs, hz, hk⟩ := natStr_spells k
    have hne : szs ≠ [] := by
      obtain ⟨_, _, _, _, _, rfl, _⟩ := hz; simp
    have := key szs (.inr hz) (by
      intro c hc
      have := natStr_digits k c hc
      rintro rfl
      exact absurd this (by decide))
    refine ⟨k, rfl, by omega, this.1, ?_⟩
    rw [this.2, BasedLiteral.declaredWidth, if_neg hne, hk]

theorem sized_noxz {w : Option Int} {ws : Str} (h : WidthText w ws) (n : Nat) :
    (ws ++ '\'' :: 'd' :: natStr n).any (fun c => c = 'x' ∨ c = 'z' ∨ c = 'X' ∨ c = 'Z') = false := by
  have hd : ∀ k : Nat, ∀ c ∈ natStr k, ¬ (c = 'x' ∨ c = 'z' ∨ c = 'X' ∨ c = 'Z') := by
    intro k c hc
    have := natStr_digits k c hc
    rintro (rfl | rfl | rfl | rfl) <;> exact absurd this (by decide)
  rw [List.any_eq_false]
  intro c hc
  rw [decide_eq_true_eq]
  rw [List.mem_append, List.mem_cons, List.mem_cons] at hc
  rcases hc with hc | rfl | rfl | hc
  · rcases h with ⟨_, rfl⟩ | ⟨k, _, _, rfl⟩
    · simp at hc
    · exact hd k c hc
  · decide
  · decide
  · exact hd n c hc

theorem sized_value {w : Option Int} {ws : Str} (h : WidthText w ws) (n : Nat) (ρ : Env) :
    ∃ z : Int, w = some z ∧ 0 ≤ z ∧ sem ρ (.intc (ws ++ '\'' :: 'd' :: natStr n)) = some ((n : Int), z) := by
  obtain ⟨z, h1, h0, h2, h3⟩ := sized_literal h n
  refine ⟨z, h1, h0, ?_⟩
  simp only [sem, sized_noxz h n, h2, h3, Bool.false_eq_true, if_false]

/-! ## Expressions -/

theorem means_ident {D : Option Ex} {t : DF} {n : Str} (h : Means D t (.ident [] n)) : ∃ c : ScopeChain, t = .term c ∧ n = c.tocode := by
  cases h; exact ⟨_, rfl, rfl⟩

theorem exVal_ptr_ident {ρ : Env} {res : Str → Option ScopeChain} {n : Str} {p : Ex} :
    exVal ρ res (.ptr (.ident [] n) p) =
      (do let i ← exVal ρ res p; indexVal ρ (res n) (exVal ρ res (.ident [] n)) i.1) := rfl

theorem exVal_ptr_other {ρ : Env} {res : Str → Option ScopeChain} {v p : Ex} (h : ∀ n, v ≠ .ident [] n) :
    exVal ρ res (.ptr v p) = (do let i ← exVal ρ res p; let x ← exVal ρ res v; bitVal x.1 i.1) := by
  cases v with
  | ident sc n =>
    cases sc with
    | nil => exact absurd rfl (h n)
    | cons => rfl
  | _ => rfl

/-- The expression a tree stands for has the value of the tree. -/
theorem means_value {D : Option Ex} {ρ : Env} {res : Str → Option ScopeChain} (ha : ArraysOK ρ) (t : DF) :
    ∀ e, Means D t e → (∀ n ∈ t.terms, res n.tocode = some n) → ∀ v, sem ρ t = some v → exVal ρ res e = some v := by
  have hl : ∀ (ns : List DF), (∀ n ∈ ns, ∀ e, Means D n e → (∀ m ∈ n.terms, res m.tocode = some m) →
      ∀ v, sem ρ n = some v → exVal ρ res e = some v) → ∀ es, List.Forall₂ (Means D) ns es →
      (∀ m ∈ DF.termsList ns, res m.tocode = some m) → ∀ vs, semList ρ ns = some vs → exValL ρ res es = some vs := by
    intro ns
    induction ns with
    | nil => intro _ es h _ vs hv; cases h; simpa [semList, exValL] using hv
    | cons n ns ih =>
      intro hn es h ht vs hv
      cases h with
      | cons h1 h2 =>
        simp only [DF.termsList, List.mem_append] at ht
        simp only [semList, Option.bind_eq_bind, Option.bind_eq_some_iff, Option.some.injEq] at hv
        obtain ⟨x, hx, xs, hxs, rfl⟩ := hv
        simp only [exValL, hn n (by simp) _ h1 (fun m hm => ht m (.inl hm)) x hx,
          ih (fun m hm => hn m (by simp [hm])) _ h2 (fun m hm => ht m (.inr hm)) xs hxs, Option.bind_eq_bind, Option.bind_some]
  induction t using DF.ind with
  | term n =>
    intro e h ht v hv
    cases h
    simp only [exVal, ht n (by simp [DF.terms]), Option.bind_eq_bind, Option.bind_some]
    exact hv
  | intc s => intro e h ht v hv; cases h; simpa [exVal] using hv
  | fltc s => intro e h ht v hv; simp [sem] at hv
  | strc s => intro e h ht v hv; simp [sem] at hv
  | none => intro e h ht v hv; simp [sem] at hv
  | undef w => intro e h ht v hv; simp [sem] at hv
  | hiz w => intro e h ht v hv; simp [sem] at hv
  | delay n _ => intro e h ht v hv; simp [sem] at hv
  | sys s ns _ => intro e h ht v hv; simp [sem] at hv
  | ev x w a b =>
    intro e h ht v hv
    cases h with
    | pos n _ ws _ hw =>
      obtain ⟨z, rfl, _, h1⟩ := sized_value hw n ρ
      simp only [exVal, h1]
      simpa [sem] using hv
    | neg n _ ws _ hw =>
      obtain ⟨z, rfl, hz, h1⟩ := sized_value hw (n + 1) ρ
      simp only [exVal, h1, Option.bind_eq_bind, Option.bind_some, opSem]
      simp only [sem, Option.getD_some, Option.some.injEq] at hv
      subst hv
      simp [opWidth, Op.maxRule, maxWidth, hz]
  | op o ns ih =>
    intro e h ht v hv
    cases h with
    | un _ a a' h1 =>
      simp only [DF.terms, DF.termsList, List.append_nil] at ht
      simp only [sem, semList, Option.bind_eq_bind, Option.bind_eq_some_iff, Option.some.injEq] at hv
      obtain ⟨xs, ⟨x, hx, ys, rfl, rfl⟩, w, hw, rfl⟩ := hv
      simp only [exVal, ih a (by simp) _ h1 ht x hx, Option.bind_eq_bind, Option.bind_some]
      simp only [List.map_cons, List.map_nil] at hw ⊢
      rw [hw]; rfl
    | bin _ a b a' b' h1 h2 =>
      simp only [DF.terms, DF.termsList, List.append_nil, List.mem_append] at ht
      simp only [sem, semList, Option.bind_eq_bind, Option.bind_eq_some_iff, Option.some.injEq] at hv
      obtain ⟨xs, ⟨x, hx, ys, ⟨y, hy, zs, rfl, rfl⟩, rfl⟩, w, hw, rfl⟩ := hv
      simp only [exVal, ih a (by simp) _ h1 (fun n hn => ht n (.inl hn)) x hx, ih b (by simp) _ h2 (fun n hn => ht n (.inr hn)) y hy,
        Option.bind_eq_bind, Option.bind_some]
      simp only [List.map_cons, List.map_nil] at hw ⊢
      rw [hw]; rfl
  | psel u m l ihu ihm ihl =>
    intro e h ht v hv
    simp only [DF.terms, List.mem_append] at ht
    simp only [sem, Option.bind_eq_bind, Option.bind_eq_some_iff] at hv
    obtain ⟨x, hx, a, ham, b, hb, hv⟩ := hv
    cases h with
    | psel _ _ _ u' m' l' h1 h2 h3 _ =>
      simp only [exVal, ihu _ h1 (fun n hn => ht n (.inl (.inl hn))) x hx, ihm _ h2 (fun n hn => ht n (.inl (.inr hn))) a ham,
        ihl _ h3 (fun n hn => ht n (.inr hn)) b hb, Option.bind_eq_bind, Option.bind_some]
      exact hv
    | bit _ _ _ u' m' h1 h2 h3 =>
      have e1 := ihm _ h2 (fun n hn => ht n (.inl (.inr hn))) a ham
      have e2 := ihl _ h3 (fun n hn => ht n (.inr hn)) b hb
      rw [e1] at e2; simp only [Option.some.injEq] at e2; subst e2
      rw [psel_bit] at hv
      have e3 := ihu _ h1 (fun n hn => ht n (.inl (.inl hn))) x hx
      by_cases hid : ∃ n, u' = .ident [] n
      · obtain ⟨n, rfl⟩ := hid
        obtain ⟨c, rfl, rfl⟩ := means_ident h1
        have hno : ρ.arr c = none := by
          by_contra hc
          obtain ⟨f, hf⟩ := Option.ne_none_iff_exists'.mp hc
          rw [sem, ha c f hf] at hx
          simp at hx
        rw [exVal_ptr_ident]
        simp only [e1, e3, Option.bind_eq_bind, Option.bind_some, indexVal, ht c (.inl (.inl (by simp [DF.terms]))), hno]
        exact hv
      · rw [exVal_ptr_other (fun n hn => hid ⟨n, hn⟩)]
        simp only [e1, e3, Option.bind_eq_bind, Option.bind_some]
        exact hv
  | ptr u p ihu ihp =>
    intro e h ht v hv
    simp only [DF.terms, List.mem_append] at ht
    rw [sem_ptr] at hv
    simp only [Option.bind_eq_bind, Option.bind_eq_some_iff] at hv
    obtain ⟨i, hi, hv⟩ := hv
    cases h with
    | ptr _ _ u' p' h1 h2 =>
      have ep := ihp _ h2 (fun n hn => ht n (.inr hn)) i hi
      by_cases hu : ∃ c, u = .term c
      · obtain ⟨c, rfl⟩ := hu
        cases h1
        have hc := ht c (.inl (by simp [DF.terms]))
        rw [exVal_ptr_ident]
        simp only [ep, hc, indexVal, Option.bind_some, exVal, Option.bind_eq_bind]
        exact hv
      · have hv' : (do let x ← sem ρ u; bitVal x.1 i.1) = some v := by
          unfold ptrSem at hv
          split at hv
          · exact absurd ⟨_, rfl⟩ hu
          · exact hv
        simp only [Option.bind_eq_bind, Option.bind_eq_some_iff] at hv'
        obtain ⟨x, hx, hv'⟩ := hv'
        rw [exVal_ptr_other (by
          rintro n rfl
          obtain ⟨c, rfl, _⟩ := means_ident h1
          exact hu ⟨c, rfl⟩)]
        simp only [ep, ihu _ h1 (fun n hn => ht n (.inl hn)) x hx, Option.bind_eq_bind, Option.bind_some]
        exact hv'
  | concat ns ih =>
    intro e h ht v hv
    cases h with
    | concat _ es h1 =>
      simp only [DF.terms] at ht
      simp only [sem, Option.bind_eq_bind, Option.bind_eq_some_iff] at hv
      obtain ⟨xs, hxs, hv⟩ := hv
      simp only [exVal, hl ns ih es h1 ht xs hxs, Option.bind_eq_bind, Option.bind_some]
      exact hv
  | branch c t f ihc iht ihf =>
    intro e h ht v hv
    simp only [DF.terms, List.mem_append] at ht
    simp only [sem, Option.bind_eq_bind, Option.bind_eq_some_iff] at hv
    obtain ⟨b, hb, hv⟩ := hv
    cases h with
    | branch _ _ _ c' t' f' h1 h2 h3 =>
      simp only [exVal, ihc _ h1 (fun n hn => ht n (.inl (.inl hn))) b hb, Option.bind_eq_bind, Option.bind_some]
      split at hv
      · rename_i hne; rw [if_pos hne]; exact iht _ h2 (fun n hn => ht n (.inl (.inr hn))) v hv
      · rename_i hne; rw [if_neg hne]; exact ihf _ h3 (fun n hn => ht n (.inr hn)) v hv
    | keepT _ _ c' d f' hD h1 h3 =>
      simp only [exVal, ihc _ h1 (fun n hn => ht n (.inl (.inl hn))) b hb, Option.bind_eq_bind, Option.bind_some]
      split at hv
      · simp [sem] at hv
      · rename_i hne; rw [if_neg hne]; exact ihf _ h3 (fun n hn => ht n (.inr hn)) v hv
    | keepF _ _ c' t' d hD h1 h2 =>
      simp only [exVal, ihc _ h1 (fun n hn => ht n (.inl (.inl hn))) b hb, Option.bind_eq_bind, Option.bind_some]
      split at hv
      · rename_i hne; rw [if_pos hne]; exact iht _ h2 (fun n hn => ht n (.inl (.inr hn))) v hv
      · simp [sem] at hv
    | keep _ c' d hD h1 => split at hv <;> simp [sem] at hv

/-! ## Statements -/

theorem writes_nb {ρ : Env} {res : Str → Option ScopeChain} (ha : ArraysOK ρ) {x : ScopeChain} (hx : res x.tocode = some x) {t : DF}
    {S : List Stmt} (h : Writes (.ident [] x.tocode) true t S) :
    (∀ n ∈ t.terms, res n.tocode = some n) → ∀ v, sched ρ t = some v → nbRunList ρ res x S none = some v := by
  have one : ∀ (s : Stmt) o v, nbRun ρ res x s o = some v → nbRunList ρ res x [s] o = some v := by
    intro s o v h
    simp only [nbRunList, h, Option.bind_eq_bind, Option.bind_some]
  induction h with
  | keep => intro _ v hv; simpa [sched, nbRunList] using hv
  | value t e h1 h2 hm hp =>
    intro ht v hv
    have hs : sched ρ t = (sem ρ t).map some := by
      unfold sched
      split
      · exact absurd rfl h1
      · exact absurd rfl (h2 _ _ _)
      · rfl
    rw [hs, Option.map_eq_some_iff] at hv
    obtain ⟨w, hw, rfl⟩ := hv
    refine one _ _ _ ?_
    simp only [asgStmt, if_true, nbRun, hx, means_value ha t e hm ht w hw, Option.map_some]
  | one c t c' T hc _ _ ih =>
    intro ht v hv
    simp only [DF.terms, List.mem_append] at ht
    simp only [sched, Option.bind_eq_bind, Option.bind_eq_some_iff] at hv
    obtain ⟨b, hb, hv⟩ := hv
    refine one _ _ _ ?_
    simp only [nbRun, means_value ha c c' hc (fun n hn => ht n (.inl (.inl hn))) b hb, Option.bind_eq_bind, Option.bind_some]
    split at hv
    · rename_i hne; rw [if_pos hne]; exact ih (fun n hn => ht n (.inl (.inr hn))) v hv
    · rename_i hne; rw [if_neg hne]; simpa [sched] using hv
  | two c t f c' T F hc _ _ _ _ iht ihf =>
    intro ht v hv
    simp only [DF.terms, List.mem_append] at ht
    simp only [sched, Option.bind_eq_bind, Option.bind_eq_some_iff] at hv
    obtain ⟨b, hb, hv⟩ := hv
    refine one _ _ _ ?_
    simp only [nbRun, means_value ha c c' hc (fun n hn => ht n (.inl (.inl hn))) b hb, Option.bind_eq_bind, Option.bind_some]
    split at hv
    · rename_i hne; rw [if_pos hne]; exact iht (fun n hn => ht n (.inl (.inr hn))) v hv
    · rename_i hne; rw [if_neg hne]; exact ihf (fun n hn => ht n (.inr hn)) v hv

theorem writes_ba {fit : ScopeChain → Int × Int → Int × Int} {ρ : Env} {res : Str → Option ScopeChain} (ha : ArraysOK ρ)
    {x : ScopeChain} (hx : res x.tocode = some x) {t : DF}
    {S : List Stmt} (h : Writes (.ident [] x.tocode) false t S) :
    (∀ n ∈ t.terms, res n.tocode = some n) → ∀ o, sched ρ t = some o →
      baRunList fit res S ρ = some (match o with | some v => ρ.set x (some (fit x v)) | none => ρ) := by
  have one : ∀ (s : Stmt) η v, baRun fit res s η = some v → baRunList fit res [s] η = some v := by
    intro s o v h
    simp only [baRunList, h, Option.bind_eq_bind, Option.bind_some]
  induction h with
  | keep => intro _ o ho; simp only [sched, Option.some.injEq] at ho; subst ho; simp [baRunList]
  | value t e h1 h2 hm hp =>
    intro ht v hv
    have hs : sched ρ t = (sem ρ t).map some := by
      unfold sched
      split
      · exact absurd rfl h1
      · exact absurd rfl (h2 _ _ _)
      · rfl
    rw [hs, Option.map_eq_some_iff] at hv
    obtain ⟨w, hw, rfl⟩ := hv
    refine one _ _ _ ?_
    simp only [asgStmt, Bool.false_eq_true, if_false, baRun, hx, Option.bind_eq_bind, Option.bind_some, means_value ha t e hm ht w hw,
      Option.map_some]
  | one c t c' T hc _ _ ih =>
    intro ht v hv
    simp only [DF.terms, List.mem_append] at ht
    simp only [sched, Option.bind_eq_bind, Option.bind_eq_some_iff] at hv
    obtain ⟨b, hb, hv⟩ := hv
    refine one _ _ _ ?_
    simp only [baRun, means_value ha c c' hc (fun n hn => ht n (.inl (.inl hn))) b hb, Option.bind_eq_bind, Option.bind_some]
    split at hv
    · rename_i hne; rw [if_pos hne]; exact ih (fun n hn => ht n (.inl (.inr hn))) v hv
    · rename_i hne; rw [if_neg hne]; simp only [sched, Option.some.injEq] at hv; subst hv; rfl
  | two c t f c' T F hc _ _ _ _ iht ihf =>
    intro ht v hv
    simp only [DF.terms, List.mem_append] at ht
    simp only [sched, Option.bind_eq_bind, Option.bind_eq_some_iff] at hv
    obtain ⟨b, hb, hv⟩ := hv
    refine one _ _ _ ?_
    simp only [baRun, means_value ha c c' hc (fun n hn => ht n (.inl (.inl hn))) b hb, Option.bind_eq_bind, Option.bind_some]
    split at hv
    · rename_i hne; rw [if_pos hne]; exact iht (fun n hn => ht n (.inl (.inr hn))) v hv
    · rename_i hne; rw [if_neg hne]; exact ihf (fun n hn => ht n (.inr hn)) v hv

/-! ## C78 -/

/-- **C78** (part) What the item read back for an assignment to a whole signal assigns.  For `assign`, the right side has
the value of the tree; a clocked block schedules what the tree prescribes, or nothing where it prescribes nothing; a
combinational block sets the signal to it (`fit`: what a signal makes of a value), and leaves everything else.
`res` resolves the printed names.  Missing: assignments to parts of a signal. -/
theorem C78_value_partial (b : Bind) (i : MItem) (h : BindMeans b i) (hw : b.target = .term b.dest)
    (ρ : Env) (ha : ArraysOK ρ) (res : Str → Option ScopeChain) (hd : res b.dest.tocode = some b.dest)
    (hn : ∀ n ∈ b.tree.terms, res n.tocode = some n) :
    (b.always = none → b.param ≠ "parameter".toList → b.param ≠ "localparam".toList →
      ∃ r, i = .assign (.ident [] b.dest.tocode) r ∧ ∀ v, sem ρ b.tree = some v → exVal ρ res r = some v) ∧
    (b.param = "parameter".toList ∨ b.param = "localparam".toList →
      ∃ loc r, i = .decl [.param loc ⟨b.dest.tocode, r, none, false⟩] ∧ ∀ v, sem ρ b.tree = some v → exVal ρ res r = some v) ∧
    (∀ a, b.always = some a → b.param ≠ "parameter".toList → b.param ≠ "localparam".toList → a.clockName = none →
      ∃ S, i = .always .always [.all] S ∧ ∀ fit o, sched ρ b.tree = some o →
        baRun fit res S ρ = some (match o with | some v => ρ.set b.dest (some (fit b.dest v)) | none => ρ)) ∧
    (∀ a c, b.always = some a → b.param ≠ "parameter".toList → b.param ≠ "localparam".toList → a.clockName = some c →
      ∃ ss S, i = .always .always ss S ∧ ∀ o, sched ρ b.tree = some o → nbRun ρ res b.dest S none = some o) := by
  have hdest : ∀ D, Means none b.target D → D = .ident [] b.dest.tocode := by
    intro D hD
    rw [hw] at hD
    cases hD; rfl
  have hpl : "localparam".toList ≠ "parameter".toList := by decide
  cases h with
  | param e hpar _ _ hm _ =>
    refine ⟨fun _ h => absurd hpar h, fun _ => ⟨false, e, rfl, fun v hv => means_value ha _ _ hm hn v hv⟩, ?_, ?_⟩
    · intro a _ h; exact absurd hpar h
    · intro a c _ h; exact absurd hpar h
  | localparam e hpar _ _ hm _ =>
    refine ⟨fun _ _ h => absurd hpar h, fun _ => ⟨true, e, rfl, fun v hv => means_value ha _ _ hm hn v hv⟩, ?_, ?_⟩
    · intro a _ _ h; exact absurd hpar h
    · intro a c _ _ h; exact absurd hpar h
  | assign D e h1 h2 hal hD hDp hm hp =>
    have := hdest D hD; subst this
    refine ⟨fun _ _ _ => ⟨e, rfl, fun v hv => means_value ha _ _ hm hn v hv⟩, ?_, ?_, ?_⟩
    · rintro (h | h)
      · exact absurd h h1
      · exact absurd h h2
    · intro a h; rw [hal] at h; cases h
    · intro a c h; rw [hal] at h; cases h
  | comb D S a h1 h2 hal hck htr hD hDp hwr =>
    have := hdest D hD; subst this
    refine ⟨fun h => (by rw [hal] at h; cases h), ?_, ?_, ?_⟩
    · rintro (h | h)
      · exact absurd h h1
      · exact absurd h h2
    · intro a' h' _ _ _
      refine ⟨_, rfl, fun fit o ho => ?_⟩
      simp only [baRun]
      exact writes_ba ha hd hwr hn o ho
    · intro a' c h' _ _ hc
      rw [hal] at h'; cases h'
      rw [hck] at hc; cases hc
  | clocked D S a ck rs h1 h2 hal htr hck hrs hD hDp hwr =>
    have := hdest D hD; subst this
    refine ⟨fun h => (by rw [hal] at h; cases h), ?_, ?_, ?_⟩
    · rintro (h | h)
      · exact absurd h h1
      · exact absurd h h2
    · intro a' h' _ _ hc
      rw [hal] at h'; cases h'
      obtain ⟨_, _, x, _, _, _, _, hx, _⟩ := hck.ok
      rw [hc] at hx; cases hx
    · intro a' c h' _ _ hc
      refine ⟨_, _, rfl, fun o ho => ?_⟩
      simp only [nbRun]
      exact writes_nb ha hd hwr hn o ho

/-- **C78** (a defect) The text does not mention which bit of a signal is the clock or the reset: two assignments that
differ in it only have the same text, whatever else they are. -/
theorem C78_bits_lost (b : Bind) (a : AlwaysInfo) (ck rs : Option Int) (h : b.always = some a) :
    ({ b with always := some { a with clockBit := ck, resetBit := rs } } : Bind).tocode = b.tocode := by
  simp only [Bind.tocode, h]
  rfl

/-- **C78** (a defect) An assignment without a value has no text. -/
theorem C78_no_value (b : Bind) (ht : b.tree = .none) (h1 : b.param ≠ "parameter".toList) (h2 : b.param ≠ "localparam".toList)
    (hs : b.ptr = .none) (hm : b.msb = .none) : b.tocode = .error .attribute := by
  have hd : b.getdest = .ok b.dest.tocode := by
    simp [Bind.getdest, hs, hm, ok_bind]
  unfold Bind.tocode
  rw [if_neg h1, if_neg h2]
  cases b.always with
  | none => simp [Bind.codeAssign, hd, ok_bind, ht, DF.tocode]; rfl
  | some a =>
    simp only
    split
    · simp [Bind.codeComb, hd, ok_bind, Bind.codeBody, ht]; rfl
    · simp [Bind.codeClocked, hd, ok_bind, Bind.codeBody, ht]; rfl

/-! ### Non-vacuity -/

def c78n (s : String) : ScopeChain := [⟨s.toList, .module, none⟩]
/-- `if(r) q <= 2'd0; else if(e) q <= d + 1` at the edges of `ck` and `r`. -/
def c78b : Bind :=
  { tree := .branch (.term (c78n "r")) (.evi 0 (some 2)) (.branch (.term (c78n "e")) (.op .plus [.term (c78n "d"), .evi 1 (some 2)]) .none)
    dest := c78n "q", msb := .none, lsb := .none, ptr := .none
    always := some { clockName := some (c78n "ck"), clockEdge := some "posedge".toList, clockBit := some 3,
                     resetName := some (c78n "r"), resetEdge := some "negedge".toList } }

example : c78b.tocode = .ok ("always @(posedge ck or negedge r) begin\nif(r) begin\nq <= 2'd0;\nend\nelse begin\n" ++
    "if(e) begin\nq <= (d+2'd1);\nend\nend\nend\n\n").toList := by decide +kernel

theorem c78_plain (s : String) (c : Char) (t : Str) (h : s.toList = c :: t)
    (h1 : isIdStart c = true) (h2 : ∀ x ∈ t, isIdChar x = true) (h3 : s.toList ∉ reservedWords) : PlainId s.toList :=
  ⟨⟨c, t, h, h1, h2⟩, h3⟩

theorem c78_lit (c : Char) (h : c ∈ "01".toList) : IntLit (natStr 2 ++ '\'' :: 'd' :: [c]) := by
  refine .based (natStr 2) [] 'd' c [] (by decide) (Or.inl rfl) (Or.inr (Or.inr (Or.inr ⟨by decide, ?_⟩))) (by simp) (by simp)
  revert c; decide

theorem c78_code (s : String) : (c78n s).tocode = s.toList := by
  by_cases h : s = ""
  · subst h; rfl
  · simp [c78n, ScopeChain.tocode, ScopeChain.tocodeParts, ScopeLabel.tocode, ScopeType.unprint, h]

example : ∃ i, BindMeans c78b i := by
  have hid : ∀ s : String, s ∈ ["r", "e", "d", "q", "ck"] → PlainId s.toList := by
    intro s hs
    simp only [List.mem_cons, List.not_mem_nil, or_false] at hs
    rcases hs with rfl | rfl | rfl | rfl | rfl <;> exact c78_plain _ _ _ rfl (by decide) (by decide) (by decide +kernel)
  have hid' : ∀ s : String, s ∈ ["r", "e", "d", "q", "ck"] → PlainId (c78n s).tocode := by
    intro s hs; rw [c78_code]; exact hid s hs
  have hw : WidthText (some 2) (natStr 2) := .inr ⟨2, by decide, rfl, rfl⟩
  refine ⟨_, .clocked (.ident [] (c78n "q").tocode) _ _ _ _ (by decide) (by decide) rfl (by decide) (.pos _ (hid' "ck" (by simp)))
    (.inr (.neg _ (hid' "r" (by simp)))) (.term _) ⟨rfl, hid' "q" (by simp)⟩ (.two _ _ _ _ _ _ (.term _) ⟨rfl, hid' "r" (by simp)⟩
      (.value _ _ (by decide) (by simp [DF.evi]) (.pos 0 (some 2) _ _ hw) (c78_lit '0' (by decide))) (by decide)
      (.one _ _ _ _ (.term _) ⟨rfl, hid' "e" (by simp)⟩
        (.value _ _ (by decide) (by simp) (.bin _ _ _ _ _ (.term _) (.pos 1 (some 2) _ _ hw)) ⟨rfl, ⟨rfl, hid' "d" (by simp)⟩, c78_lit '1' (by decide)⟩)))⟩

end Pyv
