import Verif.Props.ModuleParse
/-
  Printed modules are read back.
-/
namespace Pyv

/-! ## Arguments -/

/-- The first token of an argument without a name. -/
def ArgHead (t : Tok) : Prop := t ≠ .p .rparen ∧ t ≠ .p .dot ∧ t ≠ .p .comma

theorem itoks_argHead (e : Ex) (hw : e.WF) : ∃ t r, e.itoks = t :: r ∧ ArgHead t := by
  have hwrap : ∀ e : Ex, (∃ t r, e.itoks = t :: r ∧ ArgHead t) → ∃ t r, e.wrapT e.itoks = t :: r ∧ ArgHead t := by
    intro e h
    unfold Ex.wrapT
    split
    · exact ⟨_, _, rfl, by simp [ArgHead]⟩
    · exact h
  induction e using Ex.ind with
  | ident sc n =>
    cases sc with
    | nil => exact ⟨_, _, rfl, by simp [ArgHead]⟩
    | cons a sc => exact ⟨_, _, rfl, by simp [ArgHead]⟩
  | uplus e ih => simp only [Ex.WF] at hw; exact hwrap e (ih hw)
  | un o e => exact ⟨_, _, rfl, by cases o <;> simp [ArgHead, Op.pun]⟩
  | bin o a b iha _ =>
    simp only [Ex.WF] at hw
    simp only [Ex.itoks]
    have : ∃ t r, (if a.stripLeft o then a.itoks else a.wrapT a.itoks) = t :: r ∧ ArgHead t := by
      split
      · exact iha hw.2.2.1
      · exact hwrap a (iha hw.2.2.1)
    obtain ⟨t, r, e, ht⟩ := this
    exact ⟨t, _, by rw [e]; rfl, ht⟩
  | psel v m l ihv _ _ =>
    simp only [Ex.WF] at hw
    obtain ⟨t, r, e, ht⟩ := ihv hw.2.1
    exact ⟨t, _, by simp only [Ex.itoks, e]; rfl, ht⟩
  | ptr v m ihv _ =>
    simp only [Ex.WF] at hw
    obtain ⟨t, r, e, ht⟩ := ihv hw.2.1
    exact ⟨t, _, by simp only [Ex.itoks, e]; rfl, ht⟩
  | _ => exact ⟨_, _, rfl, by simp [ArgHead]⟩

/-- A named argument. -/
def PArg.NamedOK (opt : Bool) (a : PArg) : Prop :=
  (∃ n, a.name = some n ∧ NameOK n) ∧ (∀ e, a.arg = some e → e.Printable) ∧ (a.arg = none → opt = true)

/-- An unnamed argument. -/
def PArg.PosOK (a : PArg) : Prop := a.name = none ∧ ∃ e, a.arg = some e ∧ e.Printable

theorem ArgsOK.cases {opt : Bool} {as : List PArg} (h : ArgsOK opt as) : (∀ a ∈ as, a.NamedOK opt) ∨ (∀ a ∈ as, a.PosOK) := by
  obtain ⟨h1, h2 | h2⟩ := h
  · exact .inl fun a ha => ⟨(h2 a ha).1, h1 a ha, (h2 a ha).2⟩
  · refine .inr fun a ha => ⟨(h2 a ha).1, ?_⟩
    cases hx : a.arg with
    | none => exact absurd hx (h2 a ha).2
    | some e => exact ⟨e, rfl, h1 a ha e hx⟩

theorem pargs_pos (md : Str) (args : List PArg) (hargs : ∀ a ∈ args, a.name = none) (m : List MSym) {t : Tok} (ht : ArgHead t) (r : List Tok) :
    mnext (at' (.pargs md args :: m) (t :: r)) = some (at' (.parg md args none :: m) (t :: r)) := by
  have hall : args.all (fun a => a.name.isNone) = true := by simpa using hargs
  simp only [mnext, mstep]
  cases t with
  | p x =>
    cases x <;> first | exact absurd rfl ht.1 | exact absurd rfl ht.2.1 | (simp only [stepPargs, hall, if_true]; rfl)
  | _ => simp only [stepPargs, hall, if_true]; rfl

theorem pargs_read {as : List PArg} (h : (∀ a ∈ as, a.NamedOK false) ∨ (∀ a ∈ as, a.PosOK)) (hne : as ≠ []) (md : Str) (m : List MSym) (ts : List Tok) :
    ∀ done : List PArg, ((∀ a ∈ as, a.NamedOK false) → ∀ a ∈ done, a.name ≠ none) → ((∀ a ∈ as, a.PosOK) → ∀ a ∈ done, a.name = none) →
    MSt (at' (.pargs md done :: m) (commaT (as.map PArg.toks) ++ .p .rparen :: ts)) (at' (.insts md (done ++ as.map PArg.erase) true [] :: m) ts) := by
  induction as with
  | nil => exact absurd rfl hne
  | cons a as ih =>
    intro done hd1 hd2
    obtain ⟨nm, ar⟩ := a
    -- one argument and the token after it
    have one : ∀ (rest : List Tok) (y : MS),
        (∀ e, ar = some e → (match nm with
          | some n => stepParg md done (some n) m [.ex e.erase] (.p .rparen :: rest)
          | none => stepParg md done none m [.ex e.erase] rest) = some y) →
        (∃ k r', rest = .p k :: r' ∧ isTerm (.tok (.p k)) = true) →
        MSt (at' (.pargs md done :: m) ((PArg.mk nm ar).toks ++ rest)) y := by
      intro rest y hy hrest
      rcases h with h | h
      · obtain ⟨⟨n, e1, hn⟩, h2, h3⟩ := h _ (List.mem_cons_self ..)
        simp only at e1 h2 h3
        subst e1
        cases ar with
        | none => exact absurd (h3 rfl) (by simp)
        | some e =>
          have hall : done.all (fun a => a.name.isSome) = true := by
            have := hd1 h
            simp only [List.all_eq_true]
            intro a ha
            have := this a ha
            cases hx : a.name with
            | none => exact absurd hx this
            | some _ => rfl
          refine .head (y := at' (.parg md done (some n) :: m) (e.itoks ++ .p .rparen :: rest)) ?_ ((mread (x := .parg md done (some n)) trivial m (h2 e rfl).1 rfl rest).trans (.one ?_))
          · simp only [mnext, mstep, PArg.toks, List.append_assoc, List.cons_append, List.nil_append, stepPargs, hall, if_true]
            rfl
          · exact hy e rfl
      · obtain ⟨e1, e, e2, he⟩ := h _ (List.mem_cons_self ..)
        simp only at e1 e2
        subst e1 e2
        obtain ⟨k, r', rfl, hk⟩ := hrest
        obtain ⟨t, r, e3, ht⟩ := itoks_argHead e he.1
        refine .head (y := at' (.parg md done none :: m) (e.itoks ++ .p k :: r')) ?_ ((mread (x := .parg md done none) trivial m he.1 hk r').trans (.one ?_))
        · simp only [PArg.toks, e3, List.cons_append]
          exact pargs_pos md done (hd2 h) m ht _
        · exact hy e rfl
    have herase : ∀ e, ar = some e → (PArg.mk nm ar).erase = ⟨nm, some e.erase⟩ := by
      rintro e rfl; rfl
    cases as with
    | nil =>
      simp only [List.map_cons, List.map_nil, commaT]
      refine one _ _ (fun e he => ?_) ⟨.rparen, ts, rfl, rfl⟩
      rw [herase e he]
      cases nm <;> rfl
    | cons a2 as =>
      simp only [List.map_cons, commaT, List.append_assoc, List.cons_append]
      refine MSt.trans (one _ (at' (.pargs md (done ++ [(PArg.mk nm ar).erase]) :: m) (commaT (a2.toks :: as.map PArg.toks) ++ .p .rparen :: ts)) (fun e he => ?_) ⟨.comma, _, rfl, rfl⟩) ?_
      · rw [herase e he]
        cases nm <;> rfl
      · have := ih (h.imp (fun h a ha => h a (List.mem_cons_of_mem _ ha)) (fun h a ha => h a (List.mem_cons_of_mem _ ha))) (by simp) (done ++ [(PArg.mk nm ar).erase]) (by
          intro h' a ha
          rcases h with h | h
          · rcases List.mem_append.mp ha with ha | ha
            · exact hd1 h a ha
            · simp at ha; subst ha
              obtain ⟨⟨n, e1, _⟩, _⟩ := h _ (List.mem_cons_self ..)
              simp only at e1
              subst e1; simp [PArg.erase]
          · obtain ⟨⟨n, e1, _⟩, _⟩ := h' a2 (by simp)
            have := (h a2 (by simp)).1
            rw [e1] at this; simp at this) (by
          intro h' a ha
          rcases h with h | h
          · obtain ⟨⟨n, e1, _⟩, _⟩ := h a2 (by simp)
            have := (h' a2 (by simp)).1
            rw [e1] at this; simp at this
          · rcases List.mem_append.mp ha with ha | ha
            · exact hd2 h a ha
            · simp at ha; subst ha
              have := (h _ (List.mem_cons_self ..)).1
              simpa [PArg.erase] using this)
        simpa using this

theorem iports_pos (md : Str) (ps : List PArg) (hs : Bool) (dn : List Inst) (n : Str) (arr : Option WRange) (args : List PArg)
    (hargs : ∀ a ∈ args, a.name = none) (m : List MSym) {t : Tok} (ht : ArgHead t) (r : List Tok) :
    mnext (at' (.iports md ps hs dn n arr args :: m) (t :: r)) = some (at' (.iport md ps hs dn n arr args none :: m) (t :: r)) := by
  have hall : args.all (fun a => a.name.isNone) = true := by simpa using hargs
  simp only [mnext, mstep]
  cases t with
  | p x =>
    cases x <;> first | exact absurd rfl ht.1 | exact absurd rfl ht.2.1 | exact absurd rfl ht.2.2 | (simp only [stepIports, hall, if_true]; rfl)
  | _ => simp only [stepIports, hall, if_true]; rfl

theorem iports_read {as : List PArg} (h : (∀ a ∈ as, a.NamedOK true) ∨ (∀ a ∈ as, a.PosOK)) (hne : as ≠ []) (md : Str) (ps : List PArg) (hs : Bool)
    (dn : List Inst) (n : Str) (arr : Option WRange) (m : List MSym) (ts : List Tok) (y : MS) :
    ∀ done : List PArg, ((∀ a ∈ as, a.NamedOK true) → ∀ a ∈ done, a.name ≠ none) → ((∀ a ∈ as, a.PosOK) → ∀ a ∈ done, a.name = none) →
    endInst md ps hs (dn ++ [⟨n, arr, done ++ as.map PArg.erase⟩]) m ts = some y →
    MSt (at' (.iports md ps hs dn n arr done :: m) (commaT (as.map PArg.toks) ++ .p .rparen :: ts)) y := by
  induction as with
  | nil => exact absurd rfl hne
  | cons a as ih =>
    intro done hd1 hd2 hend
    obtain ⟨nm, ar⟩ := a
    -- one argument and the token after it
    have one : ∀ (k : Pun) (rest : List Tok) (z : MS), (k = .comma ∨ k = .rparen) →
        (if k = .comma then go (.iports md ps hs dn n arr (done ++ [PArg.erase ⟨nm, ar⟩]) :: m) rest
          else endInst md ps hs (dn ++ [⟨n, arr, done ++ [PArg.erase ⟨nm, ar⟩]⟩]) m rest) = some z →
        MSt (at' (.iports md ps hs dn n arr done :: m) ((PArg.mk nm ar).toks ++ .p k :: rest)) z := by
      intro k rest z hk hz
      rcases h with h | h
      · obtain ⟨⟨x, e1, hn⟩, h2, h3⟩ := h _ (List.mem_cons_self ..)
        simp only at e1 h2 h3
        subst e1
        have hall : done.all (fun a => a.name.isSome) = true := by
          have := hd1 h
          simp only [List.all_eq_true]
          intro a ha
          have := this a ha
          cases hx : a.name with
          | none => exact absurd hx this
          | some _ => rfl
        cases ar with
        | none =>
          refine .one ?_
          simp only [mnext, mstep, PArg.toks, List.append_assoc, List.cons_append, List.nil_append, stepIports, hall, if_true]
          rcases hk with rfl | rfl
          · simpa [PArg.erase] using hz
          · simpa [PArg.erase] using hz
        | some e =>
          obtain ⟨t, r, e3, ht⟩ := itoks_argHead e (h2 e rfl).1
          refine .head (y := at' (.iport md ps hs dn n arr done (some x) :: m) (e.itoks ++ .p .rparen :: .p k :: rest)) ?_
            ((mread (x := .iport md ps hs dn n arr done (some x)) trivial m (h2 e rfl).1 rfl _).trans (.one ?_))
          · simp only [mnext, mstep, PArg.toks, List.append_assoc, List.cons_append, List.nil_append, e3]
            cases t with
            | p q => cases q <;> first | exact absurd rfl ht.1 | (simp only [stepIports, hall, if_true]; rfl)
            | _ => simp only [stepIports, hall, if_true]; rfl
          · rcases hk with rfl | rfl
            · exact hz
            · exact hz
      · obtain ⟨e1, e, e2, he⟩ := h _ (List.mem_cons_self ..)
        simp only at e1 e2
        subst e1 e2
        obtain ⟨t, r, e3, ht⟩ := itoks_argHead e he.1
        have hkt : (Tok.p k).ends = true := by rcases hk with rfl | rfl <;> rfl
        refine .head (y := at' (.iport md ps hs dn n arr done none :: m) (e.itoks ++ .p k :: rest)) ?_
          ((mread (x := .iport md ps hs dn n arr done none) trivial m he.1 hkt rest).trans (.one ?_))
        · simp only [PArg.toks, e3, List.cons_append]
          exact iports_pos md ps hs dn n arr done (hd2 h) m ht _
        · rcases hk with rfl | rfl
          · exact hz
          · exact hz
    cases as with
    | nil =>
      simp only [List.map_cons, List.map_nil, commaT]
      exact one .rparen ts y (.inr rfl) (by simpa using hend)
    | cons a2 as =>
      simp only [List.map_cons, commaT, List.append_assoc, List.cons_append]
      refine MSt.trans (one .comma _ (at' (.iports md ps hs dn n arr (done ++ [(PArg.mk nm ar).erase]) :: m) (commaT (a2.toks :: as.map PArg.toks) ++ .p .rparen :: ts)) (.inl rfl) rfl) ?_
      refine ih (h.imp (fun h a ha => h a (List.mem_cons_of_mem _ ha)) (fun h a ha => h a (List.mem_cons_of_mem _ ha))) (by simp) (done ++ [(PArg.mk nm ar).erase]) ?_ ?_ (by simpa using hend)
      · intro h' a ha
        rcases h with h | h
        · rcases List.mem_append.mp ha with ha | ha
          · exact hd1 h a ha
          · simp at ha; subst ha
            obtain ⟨⟨n, e1, _⟩, _⟩ := h _ (List.mem_cons_self ..)
            simp only at e1
            subst e1; simp [PArg.erase]
        · obtain ⟨⟨n, e1, _⟩, _⟩ := h' a2 (by simp)
          have := (h a2 (by simp)).1
          rw [e1] at this; simp at this
      · intro h' a ha
        rcases h with h | h
        · obtain ⟨⟨n, e1, _⟩, _⟩ := h a2 (by simp)
          have := (h' a2 (by simp)).1
          rw [e1] at this; simp at this
        · rcases List.mem_append.mp ha with ha | ha
          · exact hd2 h a ha
          · simp at ha; subst ha
            have := (h _ (List.mem_cons_self ..)).1
            simpa [PArg.erase] using this

/-- The ports of an instance, also none. -/
theorem iports_all {as : List PArg} (h : ArgsOK true as) (md : Str) (ps : List PArg) (hs : Bool)
    (dn : List Inst) (n : Str) (arr : Option WRange) (m : List MSym) (ts : List Tok) (y : MS)
    (hend : endInst md ps hs (dn ++ [⟨n, arr, as.map PArg.erase⟩]) m ts = some y) :
    MSt (at' (.iports md ps hs dn n arr [] :: m) (commaT (as.map PArg.toks) ++ .p .rparen :: ts)) y := by
  cases as with
  | nil => exact .one hend
  | cons a as => exact iports_read h.cases (by simp) md ps hs dn n arr m ts y [] (fun _ => by simp) (fun _ => by simp) hend

/-- One instance. -/
theorem inst_read {i : Inst} (md : Str) (ps : List PArg) (hs : Bool) (dn : List Inst) (m : List MSym) (ts : List Tok) (y : MS)
    (h : (i.OK ∧ ∀ j ∈ dn, j.name ≠ []) ∨ (hs = false ∧ (i.name = [] ∧ i.array = none ∧ ArgsOK true i.ports) ∧ ∀ j ∈ dn, j.name = []))
    (hend : endInst md ps hs (dn ++ [i.erase]) m ts = some y) :
    MSt (at' (.insts md ps hs dn :: m) (i.toks ++ ts)) y := by
  obtain ⟨n, arr, ports⟩ := i
  rcases h with ⟨⟨hn, ha, hp⟩, hd⟩ | ⟨rfl, ⟨e1, e2, hp⟩, hd⟩
  · simp only at hn ha hp
    have hall : dn.all (fun i => !i.name.isEmpty) = true := by
      simp only [List.all_eq_true]
      intro j hj
      cases hx : j.name with
      | nil => exact absurd hx (hd j hj)
      | cons c t => rfl
    simp only [Inst.toks, hn.ne_nil, if_false, List.append_assoc, List.cons_append, List.nil_append]
    refine .head (y := at' (.instA md ps hs dn n none :: m) (widthToks arr ++ .p .lparen :: (commaT (ports.map PArg.toks) ++ .p .rparen :: ts))) ?_ ?_
    · simp only [mnext, mstep, stepInsts, hall, if_true]; rfl
    refine MSt.trans (y := at' (.instA md ps hs dn n (arr.map rngErase) :: m) (.p .lparen :: (commaT (ports.map PArg.toks) ++ .p .rparen :: ts))) ?_ ?_
    · cases arr with
      | none => exact .refl
      | some r => exact rng_read (ha r rfl) rfl (fun _ => rfl)
    exact .head (y := at' (.iports md ps hs dn n (arr.map rngErase) [] :: m) (commaT (ports.map PArg.toks) ++ .p .rparen :: ts)) rfl
      (iports_all hp md ps hs dn n _ m ts y hend)
  · simp only at e1 e2 hp
    subst e1 e2
    have hall : dn.all (fun i => i.name.isEmpty) = true := by
      simp only [List.all_eq_true]
      intro j hj
      rw [hd j hj]; rfl
    simp only [Inst.toks, if_true, widthToks, List.append_assoc, List.cons_append, List.nil_append]
    refine .head (y := at' (.iports md ps false dn [] none [] :: m) (commaT (ports.map PArg.toks) ++ .p .rparen :: ts)) ?_
      (iports_all hp md ps false dn [] none m ts y hend)
    simp only [mnext, mstep, stepInsts, hall]; rfl

theorem insts_list {is : List Inst} (hne : is ≠ []) (md : Str) (ps : List PArg) (hs : Bool) (m : List MSym) (ts : List Tok) (y : MS)
    (h : (∀ i ∈ is, i.OK) ∨ (hs = false ∧ ∀ i ∈ is, i.name = [] ∧ i.array = none ∧ ArgsOK true i.ports)) :
    ∀ dn : List Inst, ((∀ i ∈ is, i.OK) → ∀ j ∈ dn, j.name ≠ []) →
      ((∀ i ∈ is, i.name = [] ∧ i.array = none ∧ ArgsOK true i.ports) → ∀ j ∈ dn, j.name = []) →
    addItem (.insts md ps (dn ++ is.map Inst.erase)) m ts = some y →
    MSt (at' (.insts md ps hs dn :: m) (commaT (is.map Inst.toks) ++ .p .semicolon :: ts)) y := by
  induction is with
  | nil => exact absurd rfl hne
  | cons i is ih =>
    intro dn hd1 hd2 hend
    have hi : (i.OK ∧ ∀ j ∈ dn, j.name ≠ []) ∨ (hs = false ∧ (i.name = [] ∧ i.array = none ∧ ArgsOK true i.ports) ∧ ∀ j ∈ dn, j.name = []) := by
      rcases h with h | h
      · exact .inl ⟨h i (by simp), hd1 h⟩
      · exact .inr ⟨h.1, h.2 i (by simp), hd2 h.2⟩
    cases is with
    | nil =>
      simp only [List.map_cons, List.map_nil, commaT]
      exact inst_read md ps hs dn m _ y hi hend
    | cons i2 is =>
      simp only [List.map_cons, commaT, List.append_assoc, List.cons_append]
      refine (inst_read md ps hs dn m _ (at' (.insts md ps hs (dn ++ [i.erase]) :: m) (commaT (i2.toks :: is.map Inst.toks) ++ .p .semicolon :: ts)) hi rfl).trans ?_
      refine ih (by simp) (h.imp (fun h a ha => h a (List.mem_cons_of_mem _ ha)) (fun h => ⟨h.1, fun a ha => h.2 a (List.mem_cons_of_mem _ ha)⟩)) (dn ++ [i.erase]) ?_ ?_ (by simpa using hend)
      · intro h' j hj
        rcases h with h | h
        · rcases List.mem_append.mp hj with hj | hj
          · exact hd1 h j hj
          · simp at hj; subst hj; exact (h i (by simp)).1.ne_nil
        · exact absurd (h.2 i2 (by simp)).1 (h' i2 (by simp)).1.ne_nil
      · intro h' j hj
        rcases h with h | h
        · exact absurd (h' i2 (by simp)).1 (h i2 (by simp)).1.ne_nil
        · rcases List.mem_append.mp hj with hj | hj
          · exact hd2 h.2 j hj
          · simp at hj; subst hj; exact (h.2 i (by simp)).1

theorem inst_head {i : Inst} (h : i.OK ∨ (i.name = [] ∧ i.array = none ∧ ArgsOK true i.ports)) :
    ∃ t r, i.toks = t :: r ∧ ((∃ n, t = .id n) ∨ t = .p .lparen) := by
  rcases h with h | ⟨h1, h2, _⟩
  · exact ⟨.id i.name, _, by simp only [Inst.toks, h.1.ne_nil, if_false]; rfl, .inl ⟨_, rfl⟩⟩
  · exact ⟨.p .lparen, _, by simp only [Inst.toks, h1, h2, if_true, widthToks]; rfl, .inr rfl⟩

theorem insts_read {md : Str} {qs : List PArg} {is : List Inst} (h : (MItem.insts md qs is).Std) {K : List MSym} (hK : StdCtx K) {ts : List Tok} {y : MS}
    (hy : addItem (.insts md (qs.map PArg.erase) (is.map Inst.erase)) K ts = some y) :
    MSt (at' K (instsToks md qs is ++ ts)) y := by
  obtain ⟨_, hps, hne, his⟩ := h
  simp only [instsToks, List.append_assoc, List.cons_append, List.nil_append]
  have hk : ∀ ts', mnext (at' K (.id md :: ts')) = stdItem K (.id md :: ts') := fun ts' => hK _ _ trivial
  cases qs with
  | cons q qs =>
    simp only [List.length_cons, Nat.zero_lt_succ, gt_iff_lt, if_true, List.append_assoc, List.cons_append, List.nil_append]
    refine .head (y := at' (.pargs md [] :: K) (commaT ((q :: qs).map PArg.toks) ++ .p .rparen :: (commaT (is.map Inst.toks) ++ .p .semicolon :: ts))) (by rw [hk]; rfl) ?_
    refine (pargs_read hps.cases (by simp) md K _ [] (fun _ => by simp) (fun _ => by simp)).trans ?_
    rcases his with his | his
    · exact insts_list hne md _ true _ ts _ (.inl his) [] (fun _ => by simp) (fun _ => by simp) hy
    · simp at his
  | nil =>
    simp only [List.length_nil, gt_iff_lt, Nat.lt_irrefl, if_false, List.nil_append]
    have h' : (∀ i ∈ is, i.OK) ∨ (false = false ∧ ∀ i ∈ is, i.name = [] ∧ i.array = none ∧ ArgsOK true i.ports) := his.imp id (fun h => ⟨rfl, h.2⟩)
    have hl := insts_list hne md [] false K ts _ h' [] (fun _ => by simp) (fun _ => by simp) hy
    refine .head (y := at' (.insts md [] false [] :: K) (commaT (is.map Inst.toks) ++ .p .semicolon :: ts)) ?_ hl
    rw [hk]
    cases is with
    | nil => exact absurd rfl hne
    | cons i is =>
      have hi : i.OK ∨ (i.name = [] ∧ i.array = none ∧ ArgsOK true i.ports) := by
        rcases his with h | h
        · exact .inl (h i (by simp))
        · exact .inr (h.2 i (by simp))
      obtain ⟨t, r, e, ht⟩ := inst_head hi
      cases is with
      | nil =>
        simp only [List.map_cons, List.map_nil, commaT, e, List.cons_append]
        rcases ht with ⟨x, rfl⟩ | rfl <;> rfl
      | cons i2 is =>
        simp only [List.map_cons, commaT, e, List.cons_append]
        rcases ht with ⟨x, rfl⟩ | rfl <;> rfl

/-! ## Functions and tasks -/

/-- The first token of a statement does not begin a declaration. -/
theorem toks_first {s : Stmt} (h : s.WF) : ∃ t r, s.toks = t :: r ∧ ∀ w, t = .kw w → w ∉ sigWords ∧ w ≠ "integer".toList := by
  have hl : ∀ (l : Ex) (ts : List Tok), l.Assignable → l.WF → ∃ t r, l.itoks ++ ts = t :: r ∧ ∀ w, t = .kw w → w ∉ sigWords ∧ w ≠ "integer".toList := by
    intro l ts ha hw
    obtain ⟨t, r, e, ht⟩ := ha.head hw
    refine ⟨t, r ++ ts, by rw [e]; rfl, ?_⟩
    rcases ht with ⟨n, rfl⟩ | rfl <;> simp
  have hk : ∀ (w : Str), (w ∉ sigWords ∧ w ≠ "integer".toList) → ∀ w', Tok.kw w = .kw w' → w' ∉ sigWords ∧ w' ≠ "integer".toList := by
    rintro w hw w' ⟨⟩
    exact hw
  cases s with
  | skip => exact h.elim
  | nb l r => simp only [Stmt.WF] at h; exact hl l _ h.2.1 h.1.1
  | ba l r => simp only [Stmt.WF] at h; exact hl l _ h.2.1 h.1.1
  | cases k c cs ss =>
    simp only [Stmt.WF] at h
    rcases h.1 with rfl | rfl
    · exact ⟨_, _, rfl, hk _ (by decide)⟩
    · exact ⟨_, _, rfl, hk _ (by decide)⟩
  | ifs => exact ⟨_, _, rfl, hk _ (by decide)⟩
  | block => exact ⟨_, _, rfl, hk _ (by decide)⟩
  | fors => exact ⟨_, _, rfl, hk _ (by decide)⟩
  | whiles => exact ⟨_, _, rfl, hk _ (by decide)⟩

theorem fn_decl (ret : Option WRange) (n : Str) (ds : List (List DItem)) (K : List MSym) : DeclCtx (.fn ret n ds :: K) := by
  refine ⟨fun k ts => ?_, fun ts => ?_⟩
  · simp only [mnext, mstep, stepFn, if_pos (sigWord k).1]
  · rfl

theorem fnItem_read {d : DItem} (h : d.OK ∧ d.FnOK) (ret : Option WRange) (n : Str) (ds : List (List DItem)) (K : List MSym) (ts : List Tok) :
    MSt (at' (.fn ret n ds :: K) (d.toks ++ ts)) (at' (.fn ret n (ds ++ [[d.erase]]) :: K) ts) := by
  obtain ⟨h1, h2⟩ := h
  cases d with
  | var v =>
    refine var_read h1 (fn_decl ret n ds K) ?_
    obtain ⟨k, nm, wd, sg, dm⟩ := v
    rcases h2 with h2 | h2
    · simp only at h2; subst h2; rfl
    · simp only at h2; subst h2; rfl
  | int x e =>
    obtain ⟨hx, rfl⟩ := h1
    exact int_read (fn_decl ret n ds K) rfl
  | _ => exact h2.elim

theorem fnItems_read (ds : List DItem) (h : ∀ d ∈ ds, d.OK ∧ d.FnOK) (ret : Option WRange) (n : Str) (K : List MSym) (ts : List Tok) :
    ∀ done, MSt (at' (.fn ret n done :: K) (ds.flatMap DItem.toks ++ ts)) (at' (.fn ret n (done ++ ds.map (fun d => [d.erase])) :: K) ts) := by
  induction ds with
  | nil => intro done; simp only [List.flatMap_nil, List.nil_append, List.map_nil, List.append_nil]; exact .refl
  | cons d ds ih =>
    intro done
    simp only [List.flatMap_cons, List.append_assoc]
    refine (fnItem_read (h d (by simp)) ret n done K _).trans ?_
    have := ih (fun d hd => h d (by simp [hd])) (done ++ [[d.erase]])
    rw [List.append_assoc] at this
    exact this

theorem inFn_erase {s : Stmt} (h : s.WF) (h2 : s.FnOK) : s.erase.inFn = true := by
  cases s with
  | skip => exact h.elim
  | nb l r => exact h2.elim
  | cases k c cs ss =>
    simp only [Stmt.WF] at h
    rcases h.1 with rfl | rfl <;> rfl
  | _ => rfl

/-- The declarations and the statement of a function or task. -/
theorem fnRest_read {ds : List DItem} {s : Stmt} (h : ∀ d ∈ ds, d.OK ∧ d.FnOK) (hs : s.WF) (ret : Option WRange) (hne : ret.isSome = true → ds ≠ [])
    (n : Str) (K : List MSym) (w : Str) (hw : w ≠ "else".toList) (ts : List Tok) :
    MSt (at' (.fn ret n [] :: K) ((ds.flatMap DItem.toks ++ s.toks) ++ .kw w :: ts))
      (.fnB ret n (ds.map (fun d => [d.erase])) :: K, [.st s.erase], [], .kw w :: ts) := by
  rw [List.append_assoc]
  refine (fnItems_read ds h ret n K _ []).trans ?_
  rw [List.nil_append]
  have hne2 : ¬ (ret.isSome = true ∧ ds.map (fun d => [d.erase]) = []) := by
    rintro ⟨h1, h2⟩
    exact hne h1 (by simpa using h2)
  obtain ⟨t, r, e, ht⟩ := toks_first hs
  refine .head (y := at' (.fnB ret n (ds.map (fun d => [d.erase])) :: K) (s.toks ++ .kw w :: ts)) ?_
    (lift_stmt (x := .fnB ret n (ds.map (fun d => [d.erase]))) (.inl trivial) _ (stmt_reads s hs [] _ newTop_nil (fun _ => ?_)))
  · rw [e, List.cons_append]
    simp only [mnext, mstep]
    cases t with
    | kw w' => simp only [stepFn, if_neg (ht w' rfl).1, if_neg (ht w' rfl).2, if_neg hne2]; rfl
    | _ => simp only [stepFn, if_neg hne2]; rfl
  · simpa [kwt] using hw

theorem func_read {n : Str} {ret : WRange} {ds : List (List DItem)} {s : Stmt} (h : (MItem.func n ret ds s).Std) {K : List MSym} (hK : StdCtx K) {ts : List Tok} {y : MS}
    (hy : addItem (.func n (rngErase ret) (fnNorm ds) s.erase) K ts = some y) : MSt (at' K ((MItem.func n ret ds s).toks ++ ts)) y := by
  obtain ⟨_, hr, hne, hd, hs, hf⟩ := h
  have e : (MItem.func n ret ds s).toks ++ ts = .kw "function".toList :: (rngToks ret ++ (.id n :: .p .semicolon :: (fnToks ds s ++ .kw "endfunction".toList :: ts))) := by
    show ([Tok.kw "function".toList] ++ (rngToks ret ++ ([.id n] ++ ([.p .semicolon] ++ (fnToks ds s ++ [.kw "endfunction".toList]))))) ++ ts = _
    simp only [List.append_assoc, List.cons_append, List.nil_append]
  rw [e]
  refine .head (y := at' (.fnH none :: K) (rngToks ret ++ (.id n :: .p .semicolon :: (fnToks ds s ++ .kw "endfunction".toList :: ts))))
    (by rw [hK _ _ (by show _ ∈ itemWords; decide)]; rfl) ?_
  refine (rng_read hr (x := at' (.fnH (some (rngErase ret)) :: K) (.id n :: .p .semicolon :: (fnToks ds s ++ .kw "endfunction".toList :: ts))) rfl (fun _ => rfl)).trans ?_
  refine .head (y := at' (.fn (some (rngErase ret)) n [] :: K) (fnToks ds s ++ .kw "endfunction".toList :: ts)) rfl ?_
  refine (fnRest_read hd hs (some (rngErase ret)) (fun _ => hne) n K "endfunction".toList (by decide) ts).trans (.one ?_)
  simp only [mnext, mstep, stepFnB, endFn, inFn_erase hs hf, and_self, if_true]
  exact hy

theorem task_read {n : Str} {ds : List (List DItem)} {s : Stmt} (h : (MItem.task n ds s).Std) {K : List MSym} (hK : StdCtx K) {ts : List Tok} {y : MS}
    (hy : addItem (.task n (fnNorm ds) s.erase) K ts = some y) : MSt (at' K ((MItem.task n ds s).toks ++ ts)) y := by
  obtain ⟨_, hd, hs, hf⟩ := h
  have e : (MItem.task n ds s).toks ++ ts = .kw "task".toList :: .id n :: .p .semicolon :: (fnToks ds s ++ .kw "endtask".toList :: ts) := by
    show ([Tok.kw "task".toList] ++ ([.id n] ++ ([.p .semicolon] ++ (fnToks ds s ++ [.kw "endtask".toList])))) ++ ts = _
    simp only [List.append_assoc, List.cons_append, List.nil_append]
  rw [e]
  refine .head (y := at' (.fn none n [] :: K) (fnToks ds s ++ .kw "endtask".toList :: ts))
    (by rw [hK _ _ (by show _ ∈ itemWords; decide)]; rfl) ?_
  refine (fnRest_read hd hs none (by simp) n K "endtask".toList (by decide) ts).trans (.one ?_)
  simp only [mnext, mstep, stepFnB, endFn, inFn_erase hs hf, and_self, if_true]
  exact hy

/-! ## Items -/

/-- The item is not a declaration. -/
def MItem.notDecl : MItem → Bool
  | .decl _ => false
  | _ => true

/-- How an item that is not a declaration comes back. -/
def MItem.back : MItem → MItem
  | .assign l r => .assign l.erase r.erase
  | .always k ss s => .always k (ss.map SensItem.erase) s.erase
  | .initial s => .initial s.erase
  | .insts md ps is => .insts md (ps.map PArg.erase) (is.map Inst.erase)
  | .func n ret ds s => .func n (rngErase ret) (fnNorm ds) s.erase
  | .task n ds s => .task n (fnNorm ds) s.erase
  | i => i

theorem std_norm {i : MItem} (h : i.Std) (hd : i.notDecl = true) : i.norm = [i.back] := by
  cases i with
  | decl ds => cases hd
  | assign l r => rfl
  | always k ss s => rfl
  | initial s => rfl
  | insts md ps is => rfl
  | func n r ds s => rfl
  | task n ds s => rfl
  | gen is => exact h.elim
  | gif c t => exact h.elim
  | gife c t f => exact h.elim
  | gfor pl pr c ql qr b => exact h.elim
  | gblock n is => exact h.elim

theorem std_read {i : MItem} (h : i.Std) (hd : i.notDecl = true) {K : List MSym} (hK : StdCtx K) {ts : List Tok} (hts : i.openEnd = true → ts.head? ≠ some (kwt "else"))
    {y : MS} (hy : addItem i.back K ts = some y) : MSt (at' K (i.toks ++ ts)) y := by
  cases i with
  | decl ds => cases hd
  | assign l r => exact assign_read h hK hy
  | always k ss s =>
    obtain ⟨rfl, hss, hs, hlp⟩ := h
    obtain ⟨y', h1, h2⟩ := senslist_read hss .always K (s.toks ++ ts)
    have e : (MItem.always .always ss s).toks ++ ts = .kw "always".toList :: .p .at :: .p .lparen :: (sensToks ss ++ .p .rparen :: (s.toks ++ ts)) := by
      show ([Tok.kw "always".toList] ++ ([.p .at] ++ ([.p .lparen] ++ ((sensToks ss ++ [.p .rparen]) ++ s.toks)))) ++ ts = _
      simp only [List.append_assoc, List.cons_append, List.nil_append]
    rw [e]
    refine .head (y := y') (by rw [hK _ _ (by show _ ∈ itemWords; decide)]; exact h1) (h2.trans ((lift_stmt (x := .alw .always (ss.map SensItem.erase)) (.inl trivial) _
      (stmt_reads s hs [] ts newTop_nil hts)).trans (.one ?_)))
    simp only [mnext, mstep, stepAlw, ended_erase hs hlp, if_true]
    exact hy
  | initial s =>
    have hs : s.WF := h
    have e : (MItem.initial s).toks ++ ts = .kw "initial".toList :: (s.toks ++ ts) := rfl
    rw [e]
    refine .head (y := at' (.ini :: K) (s.toks ++ ts)) (by rw [hK _ _ (by show _ ∈ itemWords; decide)]; rfl) ((lift_stmt (x := .ini) (.inl trivial) _
      (stmt_reads s hs [] ts newTop_nil hts)).trans (.one hy))
  | insts md qs is => exact insts_read h hK hy
  | func n r ds s => exact func_read h hK hy
  | task n ds s => exact task_read h hK hy
  | gen is => exact h.elim
  | gif c t => exact h.elim
  | gife c t f => exact h.elim
  | gfor pl pr c ql qr b => exact h.elim
  | gblock n is => exact h.elim

/-- What follows an item is not an else, and not the colon of the name of a block. -/
def Follows (ts : List Tok) : Prop := ts.head? ≠ some (kwt "else") ∧ ts.head? ≠ some (.p .colon)

theorem follows_kw {w : Str} (h : w ≠ "else".toList) (ts : List Tok) : Follows (.kw w :: ts) := by
  constructor
  · simpa [kwt] using h
  · simp

theorem ditem_head {d : DItem} (h : d.OK) : ∃ w r, d.toks = .kw w :: r ∧ w ≠ "else".toList := by
  cases d with
  | var v => exact ⟨_, _, rfl, by cases v.kind <;> simp [SigKind.word]⟩
  | int n e => exact ⟨_, _, rfl, by decide⟩
  | genvar n => exact ⟨_, _, rfl, by decide⟩
  | param loc p => exact ⟨_, _, rfl, by cases loc <;> decide⟩
  | assign l r => exact ⟨_, _, rfl, by decide⟩
  | real => exact h.elim
  | supply => exact h.elim

theorem decl_head {ds : List DItem} (h : ∀ d ∈ ds, d.OK) {ts : List Tok} (hts : Follows ts) : Follows ((MItem.decl ds).toks ++ ts) := by
  cases ds with
  | nil => exact hts
  | cons d ds =>
    obtain ⟨w, r, e, hw⟩ := ditem_head (h d (by simp))
    have e2 : (MItem.decl (d :: ds)).toks ++ ts = .kw w :: (r ++ (ds.flatMap DItem.toks ++ ts)) := by
      show (d :: ds).flatMap DItem.toks ++ ts = _
      simp only [List.flatMap_cons, e, List.append_assoc, List.cons_append]
    rw [e2]
    exact follows_kw hw _

theorem insts_follows (md : Str) (ps : List PArg) (is : List Inst) (ts : List Tok) : Follows ((MItem.insts md ps is).toks ++ ts) := by
  have : ∃ r, (MItem.insts md ps is).toks ++ ts = .id md :: r := ⟨_, rfl⟩
  obtain ⟨r, e⟩ := this
  rw [e]
  exact ⟨by simp [kwt], by simp⟩

theorem item_head {i : MItem} (h : i.notDecl = true ∨ ∃ ds, i = .decl ds ∧ ∀ d ∈ ds, d.OK) {ts : List Tok} (hts : Follows ts) : Follows (i.toks ++ ts) := by
  have kwf : ∀ (w : Str) (T r : List Tok), T = .kw w :: r → w ≠ "else".toList → Follows (T ++ ts) := by
    rintro w T r rfl hw
    exact follows_kw hw _
  cases i with
  | decl ds =>
    rcases h with h | ⟨ds', e, h⟩
    · cases h
    · cases e; exact decl_head h hts
  | assign l r => exact kwf "assign".toList _ _ rfl (by decide)
  | always k ss s => exact kwf "always".toList _ _ rfl (by decide)
  | initial s => exact kwf "initial".toList _ _ rfl (by decide)
  | insts md ps is => exact insts_follows md ps is ts
  | func n r ds s => exact kwf "function".toList _ _ rfl (by decide)
  | task n ds s => exact kwf "task".toList _ _ rfl (by decide)
  | gen is => exact kwf "generate".toList _ _ rfl (by decide)
  | gif c t => exact kwf "if".toList _ _ rfl (by decide)
  | gife c t f => exact kwf "if".toList _ _ rfl (by decide)
  | gfor pl pr c ql qr b => exact kwf "for".toList _ _ rfl (by decide)
  | gblock n is => exact kwf "begin".toList _ _ rfl (by decide)

/-! ## Generate constructs -/

/-- A stack of statements at the bottom of which the head of an if or for statement is complete. -/
def Past (o : List OSym) : Prop := ∃ x, o.getLast? = some x ∧
  match x with
  | .ifh _ | .els _ _ | .forB _ _ _ _ _ | .st _ => True
  | _ => False

theorem Past.cons {o : List OSym} (h : Past o) (x : OSym) : Past (x :: o) := by
  obtain ⟨y, h1, h2⟩ := h
  refine ⟨y, ?_, h2⟩
  cases o with
  | nil => simp at h1
  | cons a o => rw [List.getLast?_cons_cons]; exact h1

theorem Past.tail {o : List OSym} {x : OSym} (h : Past (x :: o)) (hx : match x with | .ifh _ | .els _ _ | .forB _ _ _ _ _ | .st _ => False | _ => True) : Past o := by
  obtain ⟨y, h1, h2⟩ := h
  cases o with
  | nil =>
    simp only [List.getLast?_singleton, Option.some.injEq] at h1
    subst h1
    cases x <;> first | exact hx.elim | exact h2.elim
  | cons a o => exact ⟨y, by rw [List.getLast?_cons_cons] at h1; exact h1, h2⟩

/-- A completed part of a statement in place of another. -/
theorem Past.swap {o : List OSym} {x : OSym} (h : Past (x :: o)) (y : OSym) (hy : match y with | .ifh _ | .els _ _ | .forB _ _ _ _ _ | .st _ => True | _ => False) : Past (y :: o) := by
  cases o with
  | nil => exact ⟨y, rfl, hy⟩
  | cons a o =>
    obtain ⟨z, h1, h2⟩ := h
    exact ⟨z, by rw [List.getLast?_cons_cons] at h1 ⊢; exact h1, h2⟩

theorem startStmt_past {o : List OSym} (h : Past o) {ts : List Tok} {o' : List OSym} {i' : List Sym} {ts' : List Tok}
    (hs : startStmt o ts = some (o', i', ts')) : Past o' := by
  unfold startStmt at hs
  repeat' split at hs
  all_goals first
    | (simp at hs; done)
    | (simp only [Option.some.injEq, Prod.mk.injEq] at hs; rw [← hs.1]; first | exact h.cons _ | exact (h.cons _).cons _)

theorem reduceStmt_past {s : Stmt} {o : List OSym} (h : Past o) {ts : List Tok} {o' : List OSym} {i' : List Sym} {ts' : List Tok}
    (hs : reduceStmt s o ts = some (o', i', ts')) : Past o' := by
  unfold reduceStmt at hs
  repeat' split at hs
  all_goals first
    | (simp at hs; done)
    | (simp only [Option.some.injEq, Prod.mk.injEq] at hs; rw [← hs.1]; first
        | exact h.swap _ trivial
        | exact (h.tail trivial).cons _
        | exact ((h.tail trivial).tail trivial).cons _)

theorem sstep_past {o : List OSym} (h : Past o) {i : List Sym} {ts : List Tok} {o' : List OSym} {i' : List Sym} {ts' : List Tok}
    (hs : sstep o i ts = some (o', i', ts')) : Past o' := by
  have hin : ∀ {o : List OSym} {i : List Sym} {ts : List Tok} {o' : List OSym} {i' : List Sym} {ts' : List Tok}, Past o →
      innerStep o i ts = some (o', i', ts') → Past o' := by
    intro o i ts o' i' ts' h hs
    unfold innerStep at hs
    cases hq : step i ts with
    | none => rw [hq] at hs; simp at hs
    | some x => rw [hq] at hs; simp at hs; rw [← hs.1]; exact h
  cases o with
  | nil => obtain ⟨x, hx, _⟩ := h; simp at hx
  | cons a o =>
    cases a with
    | st s =>
      simp only [sstep] at hs
      cases o with
      | nil => simp [reduceStmt] at hs
      | cons b o =>
        obtain ⟨z, h1, h2⟩ := h
        exact reduceStmt_past ⟨z, by rw [List.getLast?_cons_cons] at h1; exact h1, h2⟩ hs
    | lhs =>
      simp only [sstep, stepLhs] at hs
      repeat' split at hs
      all_goals first
        | exact hin h hs
        | (simp at hs; done)
        | (simp only [Option.some.injEq, Prod.mk.injEq] at hs; rw [← hs.1]; first
            | exact (h.tail trivial).cons _
            | exact ((h.tail trivial).cons _).cons _)
    | lcat es => simp [sstep] at hs
    | lv l =>
      simp only [sstep, stepLv] at hs
      repeat' split at hs
      all_goals first
        | (simp at hs; done)
        | (simp only [Option.some.injEq, Prod.mk.injEq] at hs; rw [← hs.1]; first
            | exact (h.tail trivial).cons _
            | exact ((h.tail trivial).tail trivial).cons _
            | exact (((h.tail trivial).tail trivial).cons _).cons _)
    | asg nb l =>
      simp only [sstep] at hs
      repeat' split at hs
      all_goals first
        | exact hin h hs
        | (simp at hs; done)
        | (simp only [Option.some.injEq, Prod.mk.injEq] at hs; rw [← hs.1]; first
            | exact (h.tail trivial).cons _
            | exact ((h.tail trivial).tail trivial).cons _)
    | head w =>
      simp only [sstep] at hs
      split at hs
      · next e ts2 =>
        cases hq : headOf w e with
        | none => rw [hq] at hs; simp at hs
        | some x => rw [hq] at hs; simp at hs; rw [← hs.1]; exact (h.tail trivial).cons _
      · exact hin h hs
    | forC l r =>
      simp only [sstep] at hs
      split at hs
      · simp only [Option.some.injEq, Prod.mk.injEq] at hs; rw [← hs.1]; exact ((h.tail trivial).cons _).cons _
      · exact hin h hs
    | conds cs =>
      simp only [sstep] at hs
      split at hs
      · simp only [Option.some.injEq, Prod.mk.injEq] at hs; rw [← hs.1]; exact (h.tail trivial).cons _
      · simp only [Option.some.injEq, Prod.mk.injEq] at hs; rw [← hs.1]; exact (h.tail trivial).cons _
      · exact hin h hs
    | caseh k e cs bs =>
      simp only [sstep] at hs
      repeat' split at hs
      all_goals first
        | (simp at hs; done)
        | (simp only [Option.some.injEq, Prod.mk.injEq] at hs; rw [← hs.1]; first | exact h.cons _ | exact (h.tail trivial).cons _)
    | blk n ss =>
      simp only [sstep] at hs
      repeat' split at hs
      all_goals first
        | exact startStmt_past h hs
        | (simp only [Option.some.injEq, Prod.mk.injEq] at hs; rw [← hs.1]; exact (h.tail trivial).cons _)
    | ifh c => exact startStmt_past h hs
    | els c t => exact startStmt_past h hs
    | whileh c => exact startStmt_past h hs
    | forP => exact startStmt_past h hs
    | forQ l r c => exact startStmt_past h hs
    | forB l r c ql qr => exact startStmt_past h hs
    | item cs => exact startStmt_past h hs

theorem SSt.past {o i ts o2 i2 ts2} (h : SSt o i ts o2 i2 ts2) (hp : Past o) : Past o2 := by
  induction h with
  | refl => exact hp
  | head h _ ih => exact ih (sstep_past hp h)

/-- The head of a generate if or for is read as that of a statement. -/
theorem lift_gst (K : List MSym) {o i ts o2 i2 ts2} (h : SSt o i ts o2 i2 ts2) (hp : ¬ Past o2) :
    MSt (.gst :: K, o, i, ts) (.gst :: K, o2, i2, ts2) := by
  induction h with
  | refl => exact .refl
  | @head o i t o1 i1 t1 o2 i2 t2 h hr ih =>
    refine .head (y := (.gst :: K, o1, i1, t1)) ?_ (ih hp)
    simp only [mnext, mstep, stepGst]
    split
    · exact absurd ((SSt.head h hr).past ⟨_, rfl, trivial⟩) hp
    · exact absurd ((SSt.head h hr).past ⟨_, rfl, trivial⟩) hp
    · rw [h]; rfl

/-- Where generate items are read; `br`: also a block. -/
structure GenCtx (br : Bool) (K : List MSym) : Prop where
  std : StdCtx K
  gif : ∀ ts, mnext (at' K (.kw "if".toList :: .p .lparen :: ts)) = some (.gst :: K, [.head "if".toList], [], ts)
  gfor : ∀ ts, mnext (at' K (.kw "for".toList :: .p .lparen :: ts)) = some (.gst :: K, [.lhs, .forP], [], ts)
  blk : br = true → ∀ ts, mnext (at' K (.kw "begin".toList :: ts)) = startGblk K ts

theorem itemWords_gen : ∀ w ∈ itemWords, w ≠ "if".toList ∧ w ≠ "for".toList ∧ w ≠ "begin".toList ∧ w ≠ "end".toList ∧ w ≠ "endgenerate".toList := by
  decide +kernel

theorem genItem_std {t : Tok} (ht : StdTok t) (K : List MSym) (ts : List Tok) : genItem K (t :: ts) = stdItem K (t :: ts) := by
  cases t with
  | kw w =>
    have h := itemWords_gen w ht
    simp only [genItem, if_neg (not_or.mpr ⟨h.1, h.2.1⟩)]
  | _ => rfl

theorem branchItem_std {t : Tok} (ht : StdTok t) (K : List MSym) (ts : List Tok) : branchItem K (t :: ts) = stdItem K (t :: ts) := by
  cases t with
  | kw w =>
    have h := itemWords_gen w ht
    simp only [branchItem, if_neg h.2.2.1]
    exact genItem_std ht K ts
  | _ => rfl

theorem gen_ctx (its : List MItem) (m : List MSym) : GenCtx false (.gen its :: m) := by
  refine ⟨fun t ts ht => ?_, fun ts => rfl, fun ts => rfl, fun h => by cases h⟩
  rw [← genItem_std ht]
  cases t with
  | kw w => simp only [mnext, mstep, stepGen, if_neg (itemWords_gen w ht).2.2.2.2]
  | _ => rfl

theorem gblk_ctx (n : Option Str) (its : List MItem) (m : List MSym) : GenCtx false (.gblk n its :: m) := by
  refine ⟨fun t ts ht => ?_, fun ts => rfl, fun ts => rfl, fun h => by cases h⟩
  rw [← genItem_std ht]
  cases t with
  | kw w => simp only [mnext, mstep, stepGblk, if_neg (itemWords_gen w ht).2.2.2.1]
  | _ => rfl

theorem branch_ctx {K : List MSym} (h : ∀ ts, mnext (at' K ts) = branchItem K ts) : GenCtx true K :=
  ⟨fun t ts ht => by rw [h, branchItem_std ht], fun ts => by rw [h]; rfl, fun ts => by rw [h]; rfl, fun _ ts => by rw [h]; rfl⟩

/-- A single item of a generate construct is read. -/
def Reads1 (i : MItem) : Prop := ∀ br, i.At br → i.manyDecl = false → ∃ x, i.norm = [x] ∧ ∀ K ts y, GenCtx br K →
  (i.openEnd = true → ts.head? ≠ some (kwt "else")) → addItem x K ts = some y → MSt (at' K (i.toks ++ ts)) y

theorem At.many {i : MItem} (h : i.At true) : i.manyDecl = false := by
  cases i with
  | decl ds => exact h.2 rfl
  | _ => rfl

theorem MItem.At.head {i : MItem} {br : Bool} (h : i.At br) {ts : List Tok} (hts : Follows ts) : Follows (i.toks ++ ts) := by
  refine item_head ?_ hts
  cases i with
  | decl ds => exact .inr ⟨ds, rfl, h.1⟩
  | _ => exact .inl rfl

theorem ats_head {is : List MItem} (h : ∀ i ∈ is, i.At false) {ts : List Tok} (hts : Follows ts) : Follows (MItem.toksL is ++ ts) := by
  induction is with
  | nil => exact hts
  | cons i is ih =>
    have e : MItem.toksL (i :: is) ++ ts = i.toks ++ (MItem.toksL is ++ ts) := by
      show (i.toks ++ MItem.toksL is) ++ ts = _
      rw [List.append_assoc]
    rw [e]
    exact (h i (by simp)).head (ih (fun j hj => h j (by simp [hj])))

/-- A list of items of a generate construct. -/
theorem gens_read {F : List MItem → List MSym} (hF : ∀ its, GenCtx false (F its)) (ha : ∀ x its ts, addItem x (F its) ts = some (at' (F (its ++ [x])) ts))
    (is : List MItem) (h : ∀ i ∈ is, i.At false) (hr : ∀ i ∈ is, Reads1 i) (ts : List Tok) (hts : Follows ts) :
    ∀ its, MSt (at' (F its) (MItem.toksL is ++ ts)) (at' (F (its ++ MItem.norms is)) ts) := by
  induction is with
  | nil => intro its; rw [show MItem.norms [] = [] from rfl, List.append_nil]; exact .refl
  | cons i is ih =>
    intro its
    have hi := h i (by simp)
    have h2 : ∀ i ∈ is, i.At false := fun j hj => h j (by simp [hj])
    have e : MItem.toksL (i :: is) ++ ts = i.toks ++ (MItem.toksL is ++ ts) := by
      show (i.toks ++ MItem.toksL is) ++ ts = _
      rw [List.append_assoc]
    have e2 : its ++ MItem.norms (i :: is) = (its ++ i.norm) ++ MItem.norms is := by
      show its ++ (i.norm ++ MItem.norms is) = _
      rw [List.append_assoc]
    rw [e, e2]
    refine MSt.trans ?_ (ih h2 (fun j hj => hr j (by simp [hj])) (its ++ i.norm))
    have hfol := ats_head h2 hts
    cases hm : i.manyDecl with
    | false =>
      obtain ⟨x, e3, hx⟩ := hr i (by simp) false hi hm
      rw [e3]
      exact hx _ _ _ (hF its) (fun _ => hfol.1) (ha _ _ _)
    | true =>
      cases i with
      | decl ds => exact decl_read ds hi.1 ⟨fun its => (hF its).std, ha⟩ _ its
      | _ => cases hm

theorem startGblk_none {K : List MSym} {ts : List Tok} (h : Follows ts) : startGblk K ts = go (.gblk none [] :: K) ts := by
  unfold startGblk
  split
  · exact absurd rfl h.2
  · rfl

theorem forHead_read {pl pr c ql qr : Ex} (h : ForOK pl pr c ql qr) {K : List MSym} {br : Bool} (hK : GenCtx br K) (ts : List Tok) :
    MSt (at' K (forToks pl pr c ql qr ++ ts)) (at' (.gforB pl.erase pr.erase c.erase ql.erase qr.erase :: K) ts) := by
  obtain ⟨ha, hb, hp, _, _⟩ := h
  have h1 := (hp pl (by simp)).1.1
  have h2 := (hp pr (by simp)).1.1
  have h3 := (hp c (by simp)).1.1
  have h4 := (hp ql (by simp)).1.1
  have h5 := (hp qr (by simp)).1.1
  have np : ∀ (o : List OSym) (x : OSym), o.getLast? = some x → (match x with | .ifh _ | .els _ _ | .forB _ _ _ _ _ | .st _ => False | _ => True) → ¬ Past o := by
    rintro o x e hx ⟨y, e2, hy⟩
    rw [e] at e2
    cases e2
    cases x <;> first | exact hx.elim | exact hy.elim
  have e : forToks pl pr c ql qr ++ ts = .kw "for".toList :: .p .lparen :: (pl.itoks ++ .p .equals :: (pr.itoks ++ .p .semicolon :: (c.itoks ++ .p .semicolon ::
    (ql.itoks ++ .p .equals :: (qr.itoks ++ .p .rparen :: ts))))) := by
    simp only [forToks, List.append_assoc, List.cons_append, List.nil_append]
  rw [e]
  refine .head (hK.gfor _) ?_
  refine (lift_gst K (asg_parse h1 ha h2 false (o := [.forP]) (by intro _ _; simp) (t := .p .semicolon) rfl _) (np _ _ rfl trivial)).trans ?_
  refine .head (y := (.gst :: K, [.st (.ba pl.erase pr.erase), .forP], [], _)) rfl (.head (y := (.gst :: K, [.forC pl.erase pr.erase], [], _)) rfl ?_)
  refine (lift_gst K (lift_ex (by exact trivial) (ex_parse h3 (t := .p .semicolon) rfl _)) (np _ _ rfl trivial)).trans ?_
  refine .head (y := (.gst :: K, [.lhs, .forQ pl.erase pr.erase c.erase], [], _)) rfl ?_
  refine (lift_gst K (asg_parse h4 hb h5 false (o := [.forQ pl.erase pr.erase c.erase]) (by intro _ _; simp) (t := .p .rparen) rfl _) (np _ _ rfl trivial)).trans ?_
  exact .head (y := (.gst :: K, [.forB pl.erase pr.erase c.erase ql.erase qr.erase], [], ts)) rfl (.one rfl)

theorem ifHead_read {c : Ex} (h : c.Printable) {K : List MSym} {br : Bool} (hK : GenCtx br K) (ts : List Tok) :
    MSt (at' K (.kw "if".toList :: .p .lparen :: (c.itoks ++ .p .rparen :: ts))) (at' (.gifT c.erase :: K) ts) := by
  refine .head (hK.gif _) ?_
  refine (lift_gst K (lift_ex (by exact trivial) (ex_parse h.1 (t := .p .rparen) rfl _)) ?_).trans ?_
  · rintro ⟨y, e2, hy⟩
    cases e2
    exact hy
  · exact .head (y := (.gst :: K, [.ifh c.erase], [], ts)) rfl (.one rfl)

theorem stepGifD_not {c : Ex} {t : MItem} {K : List MSym} {ts : List Tok} (h : ts.head? ≠ some (kwt "else")) :
    mnext (at' (.gifD c t :: K) ts) = addItem (.gif c t) K ts := by
  simp only [mnext, mstep, stepGifD]
  split
  · next w ts' =>
    rw [if_neg]
    rintro rfl
    exact h rfl
  · rfl

theorem one_read (i : MItem) : Reads1 i := by
  have hstd : ∀ i : MItem, i.notDecl = true → (∀ br, i.At br → i.Std) → Reads1 i := by
    intro i hn hs br h _
    exact ⟨i.back, std_norm (hs br h) hn, fun K ts y hK hts hy => std_read (hs br h) hn hK.std hts hy⟩
  induction i using MItem.ind with
  | decl ds =>
    intro br h hm
    have h2 : ds.length = 1 := by simpa [MItem.manyDecl] using hm
    obtain ⟨d, rfl⟩ := List.length_eq_one_iff.mp h2
    refine ⟨d.item, norm_decl [d], fun K ts y hK _ hy => ?_⟩
    have e : (MItem.decl [d]).toks = d.toks ++ [] := rfl
    rw [e, List.append_nil]
    exact ditem_read (h.1 d (by simp)) hK.std hy
  | assign l r => exact hstd _ rfl (fun _ h => h.1)
  | always k ss s => exact hstd _ rfl (fun _ h => h.1)
  | initial s => exact hstd _ rfl (fun _ h => h.1)
  | insts md ps is => exact hstd _ rfl (fun _ h => h.1)
  | func n r ds s => exact hstd _ rfl (fun _ h => h.1)
  | task n ds s => exact hstd _ rfl (fun _ h => h.1)
  | gen is => intro br h; exact h.elim
  | gif c t ih =>
    intro br h _
    obtain ⟨x, e, hx⟩ := ih true h.2 (At.many h.2)
    refine ⟨.gif c.erase x, by show t.norm.map _ = _; rw [e]; rfl, fun K ts y hK hts hy => ?_⟩
    have e2 : (MItem.gif c t).toks ++ ts = .kw "if".toList :: .p .lparen :: (c.itoks ++ .p .rparen :: (t.toks ++ ts)) := by
      show ([Tok.kw "if".toList] ++ ([.p .lparen] ++ (c.itoks ++ ([.p .rparen] ++ t.toks)))) ++ ts = _
      simp only [List.append_assoc, List.cons_append, List.nil_append]
    rw [e2]
    have hne := hts rfl
    refine (ifHead_read h.1 hK _).trans ?_
    refine (hx (.gifT c.erase :: K) ts (at' (.gifD c.erase x :: K) ts) (branch_ctx (fun _ => rfl)) (fun _ => hne) rfl).trans (.one ?_)
    rw [stepGifD_not hne]
    exact hy
  | gife c t f iht ihf =>
    intro br h _
    obtain ⟨hc, ht, hf, ho⟩ := h
    obtain ⟨x, e, hx⟩ := iht true ht (At.many ht)
    obtain ⟨z, e', hz⟩ := ihf true hf (At.many hf)
    refine ⟨.gife c.erase x z, by show t.norm.flatMap _ = _; rw [e, e']; rfl, fun K ts y hK hts hy => ?_⟩
    have e2 : (MItem.gife c t f).toks ++ ts = .kw "if".toList :: .p .lparen :: (c.itoks ++ .p .rparen :: (t.toks ++ .kw "else".toList :: (f.toks ++ ts))) := by
      show ([Tok.kw "if".toList] ++ ([.p .lparen] ++ (c.itoks ++ ([.p .rparen] ++ (t.toks ++ ([.kw "else".toList] ++ f.toks)))))) ++ ts = _
      simp only [List.append_assoc, List.cons_append, List.nil_append]
    rw [e2]
    refine (ifHead_read hc hK _).trans ?_
    refine (hx (.gifT c.erase :: K) _ (at' (.gifD c.erase x :: K) (.kw "else".toList :: (f.toks ++ ts))) (branch_ctx (fun _ => rfl)) (fun h => by rw [ho] at h; cases h) rfl).trans ?_
    refine .head (y := at' (.gifE c.erase x :: K) (f.toks ++ ts)) rfl ?_
    exact hz (.gifE c.erase x :: K) ts y (branch_ctx (fun _ => rfl)) hts hy
  | gfor pl pr c ql qr b ih =>
    intro br h _
    obtain ⟨x, e, hx⟩ := ih true h.2 (At.many h.2)
    refine ⟨.gfor pl.erase pr.erase c.erase ql.erase qr.erase x, by show b.norm.map _ = _; rw [e]; rfl, fun K ts y hK hts hy => ?_⟩
    have e2 : (MItem.gfor pl pr c ql qr b).toks ++ ts = forToks pl pr c ql qr ++ (b.toks ++ ts) := by
      show (forToks pl pr c ql qr ++ b.toks) ++ ts = _
      rw [List.append_assoc]
    rw [e2]
    refine (forHead_read h.1 hK _).trans ?_
    exact hx (.gforB pl.erase pr.erase c.erase ql.erase qr.erase :: K) ts y (branch_ctx (fun _ => rfl)) hts hy
  | gblock n is ih =>
    intro br h _
    obtain ⟨hbr, hn, his⟩ := h
    subst hbr
    have his := (ats_iff is).mp his
    refine ⟨.gblock n (MItem.norms is), rfl, fun K ts y hK _ hy => ?_⟩
    have e2 : (MItem.gblock n is).toks ++ ts = .kw "begin".toList :: (blockNameToks n ++ (MItem.toksL is ++ .kw "end".toList :: ts)) := by
      show ([Tok.kw "begin".toList] ++ (blockNameToks n ++ (MItem.toksL is ++ [.kw "end".toList]))) ++ ts = _
      simp only [List.append_assoc, List.cons_append, List.nil_append]
    rw [e2]
    have hfe : Follows (.kw "end".toList :: ts) := follows_kw (by decide) _
    have hl := gens_read (F := fun its => .gblk n its :: K) (fun its => gblk_ctx n its K) (fun _ _ _ => rfl) is his ih (.kw "end".toList :: ts) hfe []
    refine .head (y := at' (.gblk n [] :: K) (MItem.toksL is ++ .kw "end".toList :: ts)) ?_ (hl.trans (.one hy))
    rw [hK.blk rfl]
    cases n with
    | none => exact startGblk_none (ats_head his hfe)
    | some n => rfl

theorem mitem_read {i : MItem} (h : i.OK) (n : Str) (ps : List (List Param)) (ports : List PortD) (its : List MItem) (m : List MSym) (ts : List Tok)
    (hts : Follows ts) : MSt (bodyAt n ps ports its m (i.toks ++ ts)) (bodyAt n ps ports (its ++ i.norm) m ts) := by
  have hstd : ∀ i : MItem, i.Std → i.notDecl = true → MSt (bodyAt n ps ports its m (i.toks ++ ts)) (bodyAt n ps ports (its ++ i.norm) m ts) := by
    intro i hs hn
    rw [std_norm hs hn]
    exact std_read hs hn (body_std n ps ports its m) (fun _ => hts.1) rfl
  cases i with
  | decl ds => exact decl_read ds h (body_list n ps ports m) ts its
  | assign l r => exact hstd _ h rfl
  | always k ss s => exact hstd _ h rfl
  | initial s => exact hstd _ h rfl
  | insts md ps is => exact hstd _ h rfl
  | func n r ds s => exact hstd _ h rfl
  | task n ds s => exact hstd _ h rfl
  | gen is =>
    have his := (ats_iff is).mp h.2
    have e2 : (MItem.gen is).toks ++ ts = .kw "generate".toList :: (MItem.toksL is ++ .kw "endgenerate".toList :: ts) := by
      show ([Tok.kw "generate".toList] ++ (MItem.toksL is ++ [.kw "endgenerate".toList])) ++ ts = _
      simp only [List.append_assoc, List.cons_append, List.nil_append]
    rw [e2]
    have hl := gens_read (F := fun is => .gen is :: .body n ps ports its :: m) (fun is => gen_ctx is _) (fun _ _ _ => rfl) is his (fun i _ => one_read i)
      (.kw "endgenerate".toList :: ts) (follows_kw (by decide) _) []
    exact .head (y := at' (.gen [] :: .body n ps ports its :: m) (MItem.toksL is ++ .kw "endgenerate".toList :: ts)) rfl (hl.trans (.one rfl))
  | gif c t => exact h.elim
  | gife c t f => exact h.elim
  | gfor pl pr c ql qr b => exact h.elim
  | gblock n is => exact h.elim

theorem items_head (is : List MItem) (h : ∀ i ∈ is, i.OK) (ts : List Tok) (hts : Follows ts) : Follows (is.flatMap MItem.toks ++ ts) := by
  induction is with
  | nil => exact hts
  | cons i is ih =>
    have hi := h i (by simp)
    simp only [List.flatMap_cons, List.append_assoc]
    refine item_head ?_ (ih (fun i hi => h i (by simp [hi])))
    cases i with
    | decl ds => exact .inr ⟨ds, rfl, hi⟩
    | _ => exact .inl rfl

theorem mitems_read (is : List MItem) (h : ∀ i ∈ is, i.OK) (n : Str) (ps : List (List Param)) (ports : List PortD) (m : List MSym) (ts : List Tok)
    (hts : Follows ts) : ∀ its : List MItem,
    MSt (bodyAt n ps ports its m (is.flatMap MItem.toks ++ ts)) (bodyAt n ps ports (its ++ is.flatMap MItem.norm) m ts) := by
  induction is with
  | nil => intro its; simp only [List.flatMap_nil, List.nil_append, List.append_nil]; exact .refl
  | cons i is ih =>
    intro its
    have h2 : ∀ i ∈ is, i.OK := fun i hi => h i (by simp [hi])
    simp only [List.flatMap_cons, List.append_assoc]
    refine (mitem_read (h i (by simp)) n ps ports its m _ (items_head is h2 ts hts)).trans ?_
    have := ih h2 (its ++ i.norm)
    rwa [List.append_assoc] at this

/-! ## The header -/

theorem params_read (ds : List (List Param)) (h : ∀ d ∈ ds, ∃ p, d = [p] ∧ p.OK ∧ p.NoSemi) (hne : ds ≠ []) (n : Str) (q : Option (List (List Param)))
    (m : List MSym) (ts : List Tok) : ∀ done : List (List Param),
    MSt (at' (.params done :: .mod n q :: m) (paramlistToks ds ++ .p .rparen :: ts))
      (at' (.mod n (some (done ++ ds.map (List.map Param.erase))) :: m) ts) := by
  induction ds with
  | nil => exact absurd rfl hne
  | cons d ds ih =>
    intro done
    obtain ⟨p, rfl, hp, _⟩ := h d (by simp)
    cases ds with
    | nil =>
      obtain ⟨y, h1, h2⟩ := param_read hp false (.params done :: .mod n q :: m) (t := .p .rparen) rfl ts
      simp only [paramlistToks, List.map_cons, List.map_nil, commaT, List.flatMap_cons, List.flatMap_nil, List.append_nil, Param.ptoks, List.append_assoc,
        List.cons_append, List.nil_append]
      exact .head (y := y) h1 (h2.trans (.one rfl))
    | cons d2 ds =>
      obtain ⟨p2, rfl, hp2, _⟩ := h d2 (by simp)
      have hsplit : paramlistToks ([p] :: [p2] :: ds) = p.ptoks false ++ .p .comma :: paramlistToks ([p2] :: ds) := by
        simp [paramlistToks, commaT]
      have hhead : ∃ r, paramlistToks ([p2] :: ds) = .kw "parameter".toList :: r := by
        cases ds with
        | nil => exact ⟨_, rfl⟩
        | cons => exact ⟨_, rfl⟩
      obtain ⟨r, hr⟩ := hhead
      obtain ⟨y, h1, h2⟩ := param_read hp false (.params done :: .mod n q :: m) (t := .p .comma) rfl (paramlistToks ([p2] :: ds) ++ .p .rparen :: ts)
      rw [hsplit]
      simp only [Param.ptoks, List.append_assoc, List.cons_append, List.nil_append]
      refine .head (y := y) h1 (h2.trans (.head (y := at' (.params (done ++ [[p.erase]]) :: .mod n q :: m) (paramlistToks ([p2] :: ds) ++ .p .rparen :: ts)) ?_ ?_))
      · rw [hr]; rfl
      · have := ih (fun d hd => h d (by simp at hd ⊢; tauto)) (by simp) (done ++ [[p.erase]])
        simpa using this

theorem plist_read (xs : List Str) (hne : xs ≠ []) (n : Str) (q : Option (List (List Param))) (m : List MSym) (ts : List Tok) : ∀ done : List PortD,
    MSt (at' (.plist done :: .mod n q :: m) (commaT (xs.map (fun x => (PortD.port x).toks)) ++ .p .rparen :: .p .semicolon :: ts))
      (bodyAt n (q.getD []) (done ++ xs.map .port) [] m ts) := by
  induction xs with
  | nil => exact absurd rfl hne
  | cons x xs ih =>
    intro done
    cases xs with
    | nil => exact .one rfl
    | cons y xs =>
      refine .head (y := at' (.plist (done ++ [.port x]) :: .mod n q :: m) (commaT ((y :: xs).map (fun x => (PortD.port x).toks)) ++ .p .rparen :: .p .semicolon :: ts)) rfl ?_
      have := ih (by simp) (done ++ [.port x])
      simpa using this

/-- The keyword the second declaration of a port adds. -/
def secondWord : Option Var → List Str
  | none => []
  | some v => [v.kind.word]

theorem createIo_ok {f : Var} {s : Option Var} (h : IoOK f s) :
    createIo (f.kind.word :: (secondWord s ++ (if f.signed then ["signed".toList] else []))) f.name
      (f.width.map rngErase) (f.dims.map (List.map rngErase)) = some (PortD.erase (.io f s)) := by
  obtain ⟨_, _, h3, h4⟩ := h
  cases s with
  | none =>
    obtain ⟨k, n, w, sg, d⟩ := f
    cases k <;> first | exact h4.elim | (cases sg <;> rfl)
  | some v =>
    have hv := h3 v rfl
    obtain ⟨k, n, w, sg, d⟩ := f
    obtain ⟨k2, n2, w2, sg2, d2⟩ := v
    simp only [Var.mk.injEq, true_and] at hv
    obtain ⟨rfl, rfl, rfl, rfl⟩ := hv
    cases k <;> cases k2 <;> first | exact h4.elim | (simp [IoKinds] at h4; done) | (cases sg2 <;> rfl)

theorem io_words (ps : List PortD) (ws : List Str) (m : List MSym) (k : SigKind) (ts : List Tok) :
    mnext (at' (.ioS ps ws none :: m) (.kw k.word :: ts)) = some (at' (.ioS ps (ws ++ [k.word]) none :: m) ts) := by
  simp only [mnext, mstep, stepIoS, Option.isNone_none, (sigWord k).1, and_self, if_true]
  rfl

/-- One port up to what follows it. -/
theorem io_read {f : Var} {s : Option Var} (h : IoOK f s) (ps : List PortD) (m : List MSym) (ts : List Tok) :
    ∃ ws, createIo ws f.name (f.width.map rngErase) (f.dims.map (List.map rngErase)) = some (PortD.erase (.io f s)) ∧
      MSt (at' (.io ps :: m) ((PortD.io f s).toks ++ ts)) (at' (.ioN ps ws (f.width.map rngErase) f.name (f.dims.map (List.map rngErase)) :: m) ts) := by
  refine ⟨_, createIo_ok h, ?_⟩
  obtain ⟨⟨hn, hw, hd⟩, hwd, h3, h4⟩ := h
  simp only [PortD.toks, List.append_assoc, List.cons_append, List.nil_append]
  have hw1 : ∀ ts', mnext (at' (.io ps :: m) (.kw f.kind.word :: ts')) = some (at' (.ioS ps [f.kind.word] none :: m) ts') := by
    intro ts'
    simp only [mnext, mstep, stepIo, (sigWord f.kind).1, if_true]
    rfl
  refine .head (hw1 _) ?_
  refine MSt.trans (y := at' (.ioS ps (f.kind.word :: secondWord s) none :: m)
    (signedToks f.signed ++ (widthToks f.width ++ .id f.name :: (dimsToks f.dims ++ ts)))) ?_ ?_
  · cases s with
    | none => exact .refl
    | some v => exact .one (io_words ps [f.kind.word] m v.kind _)
  clear h3 h4
  generalize secondWord s = w2
  refine MSt.trans (y := at' (.ioS ps (f.kind.word :: (w2 ++ (if f.signed then ["signed".toList] else []))) none :: m)
    (widthToks f.width ++ .id f.name :: (dimsToks f.dims ++ ts))) ?_ ?_
  · cases f.signed with
    | false => simp only [signedToks, Bool.false_eq_true, if_false, List.append_nil, List.nil_append]; exact .refl
    | true =>
      refine .one ?_
      simp only [signedToks, if_true, List.cons_append, List.nil_append]
      rfl
  generalize (f.kind.word :: (w2 ++ (if f.signed then ["signed".toList] else []))) = ws
  refine MSt.trans (y := at' (.ioS ps ws (f.width.map rngErase) :: m) (.id f.name :: (dimsToks f.dims ++ ts))) ?_ ?_
  · cases hx : f.width with
    | none => exact .refl
    | some r => exact rng_read (hw r hx) rfl (fun _ => rfl)
  refine .head (y := at' (.ioN ps ws (f.width.map rngErase) f.name none :: m) (dimsToks f.dims ++ ts)) rfl ?_
  cases hx : f.dims with
  | none => exact .refl
  | some ls =>
    cases hy : f.width with
    | none => exact absurd hy (hwd (by rw [hx]; simp))
    | some r =>
      have := ioN_dims ps ws (rngErase r) f.name m ls (hd ls hx).2 ts none (.inl (hd ls hx).1)
      rw [Option.getD_none, List.nil_append] at this
      exact this

theorem ios_read (xs : List PortD) (h : ∀ p ∈ xs, ∃ f s, p = .io f s ∧ IoOK f s) (hne : xs ≠ []) (n : Str) (q : Option (List (List Param)))
    (m : List MSym) (ts : List Tok) : ∀ done : List PortD,
    MSt (at' (.io done :: .mod n q :: m) (commaT (xs.map PortD.toks) ++ .p .rparen :: .p .semicolon :: ts))
      (bodyAt n (q.getD []) (done ++ xs.map PortD.erase) [] m ts) := by
  induction xs with
  | nil => exact absurd rfl hne
  | cons x xs ih =>
    intro done
    obtain ⟨f, s, rfl, hx⟩ := h x (by simp)
    cases xs with
    | nil =>
      simp only [List.map_cons, List.map_nil, commaT]
      obtain ⟨ws, h1, h2⟩ := io_read hx done (.mod n q :: m) (.p .rparen :: .p .semicolon :: ts)
      refine h2.trans (.one ?_)
      simp only [mnext, mstep, stepIoN, h1, Option.bind_some]
      rfl
    | cons y xs =>
      simp only [List.map_cons, commaT, List.append_assoc, List.cons_append]
      obtain ⟨ws, h1, h2⟩ := io_read hx done (.mod n q :: m) (.p .comma :: (commaT (y.toks :: xs.map PortD.toks) ++ .p .rparen :: .p .semicolon :: ts))
      refine h2.trans (.head (y := at' (.io (done ++ [PortD.erase (.io f s)]) :: .mod n q :: m) (commaT (y.toks :: xs.map PortD.toks) ++ .p .rparen :: .p .semicolon :: ts)) ?_ ?_)
      · simp only [mnext, mstep, stepIoN, h1, Option.bind_some]
        rfl
      · have := ih (fun p hp => h p (by simp at hp ⊢; tauto)) (by simp) (done ++ [PortD.erase (.io f s)])
        simpa using this

theorem ports_read {ps : List PortD} (h : PortsOK ps) (n : Str) (q : Option (List (List Param))) (m : List MSym) (ts : List Tok) :
    MSt (at' (.mod n q :: m) (.p .lparen :: (commaT (ps.map PortD.toks) ++ .p .rparen :: .p .semicolon :: ts)))
      (bodyAt n (q.getD []) (ps.map PortD.erase) [] m ts) := by
  cases ps with
  | nil => exact .one rfl
  | cons p ps =>
    rcases h with h | h
    · have hx : ∀ l : List PortD, (∀ p ∈ l, ∃ n, p = .port n ∧ NameOK n) → ∃ xs : List Str, l = xs.map .port := by
        intro l hl
        induction l with
        | nil => exact ⟨[], rfl⟩
        | cons a l ih =>
          obtain ⟨xs, e⟩ := ih (fun p hp => hl p (by simp [hp]))
          obtain ⟨n, rfl, _⟩ := hl a (by simp)
          exact ⟨n :: xs, by rw [e]; rfl⟩
      obtain ⟨xs, e⟩ := hx _ h
      cases xs with
      | nil => simp at e
      | cons x xs =>
        rw [e]
        have := plist_read (x :: xs) (by simp) n q m ts []
        simp only [List.nil_append] at this
        have e2 : (List.map PortD.port (x :: xs)).map PortD.erase = (x :: xs).map .port := by simp [PortD.erase, Function.comp_def]
        have e3 : (List.map PortD.port (x :: xs)).map PortD.toks = (x :: xs).map (fun x => (PortD.port x).toks) := by simp [Function.comp_def]
        rw [e2, e3]
        refine .head (y := at' (.plist [] :: .mod n q :: m) (commaT ((x :: xs).map (fun x => (PortD.port x).toks)) ++ .p .rparen :: .p .semicolon :: ts)) ?_ this
        cases xs with
        | nil => rfl
        | cons => rfl
    · have := ios_read (p :: ps) h (by simp) n q m ts []
      simp only [List.nil_append] at this
      refine .head (y := at' (.io [] :: .mod n q :: m) (commaT ((p :: ps).map PortD.toks) ++ .p .rparen :: .p .semicolon :: ts)) ?_ this
      obtain ⟨f, s, rfl, _⟩ := h p (by simp)
      cases ps with
      | nil => rfl
      | cons => rfl

theorem module_read' {n : Str} {ps : List (List Param)} {ports ports' : List PortD} {its : List MItem}
    (hps : ∀ d ∈ ps, ∃ p, d = [p] ∧ p.OK ∧ p.NoSemi)
    (hports : ∀ q m ts, MSt (at' (.mod n q :: m) (.p .lparen :: (commaT (ports.map PortD.toks) ++ .p .rparen :: .p .semicolon :: ts)))
      (bodyAt n (q.getD []) ports' [] m ts))
    (his : ∀ i ∈ its, i.OK) (ms : List ModuleDef) (ts : List Tok) :
    MSt (at' [.defs ms] ((ModuleDef.mk n ps ports its).toks ++ ts))
      (at' [.defs (ms ++ [⟨n, ps.map (List.map Param.erase), ports', its.flatMap MItem.norm⟩])] ts) := by
  simp only [ModuleDef.toks, List.append_assoc, List.cons_append, List.nil_append]
  have hend : ∀ (q : List (List Param)), MSt (bodyAt n q ports' [] [.defs ms] (its.flatMap MItem.toks ++ .kw "endmodule".toList :: ts))
      (at' [.defs (ms ++ [⟨n, q, ports', its.flatMap MItem.norm⟩])] ts) := by
    intro q
    refine (mitems_read its his n q _ [.defs ms] (.kw "endmodule".toList :: ts) (follows_kw (by decide) _) []).trans (.one ?_)
    simp only [List.nil_append]
    rfl
  by_cases he : ps = []
  · subst he
    simp only [if_true, List.nil_append]
    refine .head (y := at' (.mod n none :: [.defs ms]) (.p .lparen :: (commaT (ports.map PortD.toks) ++ .p .rparen :: .p .semicolon :: (its.flatMap MItem.toks ++ .kw "endmodule".toList :: ts)))) rfl ?_
    exact (hports none [.defs ms] _).trans (hend [])
  · rw [if_neg he]
    simp only [List.append_assoc, List.cons_append, List.nil_append]
    refine .head (y := at' (.mod n none :: [.defs ms]) (.p .delay :: .p .lparen :: (paramlistToks ps ++ .p .rparen :: .p .lparen :: (commaT (ports.map PortD.toks) ++ .p .rparen :: .p .semicolon :: (its.flatMap MItem.toks ++ .kw "endmodule".toList :: ts))))) rfl ?_
    refine .head (y := at' (.params [] :: .mod n none :: [.defs ms]) (paramlistToks ps ++ .p .rparen :: .p .lparen :: (commaT (ports.map PortD.toks) ++ .p .rparen :: .p .semicolon :: (its.flatMap MItem.toks ++ .kw "endmodule".toList :: ts)))) rfl ?_
    refine (params_read ps hps he n none [.defs ms] _ []).trans ?_
    simp only [List.nil_append]
    exact (hports (some _) [.defs ms] _).trans (hend _)

theorem module_read {md : ModuleDef} (h : md.OK) (ms : List ModuleDef) (ts : List Tok) :
    MSt (at' [.defs ms] (md.toks ++ ts)) (at' [.defs (ms ++ [md.norm])] ts) := by
  obtain ⟨n, ps, ports, its⟩ := md
  obtain ⟨hn, hps, hports, his⟩ := h
  exact module_read' hps (fun q m ts => ports_read hports n q m ts) his ms ts

theorem modules_read (mds : List ModuleDef) (h : ∀ m ∈ mds, m.OK) : ∀ ms : List ModuleDef,
    MSt (at' [.defs ms] (mds.flatMap ModuleDef.toks)) (at' [.defs (ms ++ mds.map ModuleDef.norm)] []) := by
  induction mds with
  | nil => intro ms; simp only [List.flatMap_nil, List.map_nil, List.append_nil]; exact .refl
  | cons m mds ih =>
    intro ms
    simp only [List.flatMap_cons]
    refine (module_read (h m (by simp)) ms _).trans ?_
    have := ih (fun m hm => h m (by simp [hm])) (ms ++ [m.norm])
    simpa using this

/-- The loop follows the actions. -/
theorem MSt.parse {x : MS} {ms : List ModuleDef} (h : MSt x (at' [.defs ms] [])) (hne : ms ≠ []) : ∃ n, mparseN n x.1 x.2.1 x.2.2.1 x.2.2.2 = some ms := by
  generalize hy : at' [.defs ms] [] = y at h
  induction h with
  | refl => subst hy; exact ⟨1, by simp [mparseN, hne]⟩
  | @head x y z hs _ ih =>
    obtain ⟨n, hn⟩ := ih hy
    refine ⟨n + 1, ?_⟩
    obtain ⟨m, o, i, ts⟩ := x
    unfold mparseN
    split
    · next e1 e2 =>
      exfalso
      simp only at e1 e2
      subst e1 e2
      simp [mnext, mstep, stepDefs] at hs
    · have : mstep m o i ts = some y := hs
      simp only [this]
      exact hn

theorem source_parses (ms : List ModuleDef) (hne : ms ≠ []) (h : ∀ m ∈ ms, m.OK) : SourceParsesTo (sourceCode ms) (ms.map ModuleDef.norm) := by
  refine ⟨_, source_lex ms (fun m hm => (h m hm).texts), ?_⟩
  have := modules_read ms h []
  simp only [List.nil_append] at this
  exact this.parse (by simpa using hne)

end Pyv
