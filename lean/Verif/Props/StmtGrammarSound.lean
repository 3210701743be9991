import Verif.Props.StmtGrammarProps
import Verif.Props.StmtProps
/-
  C83, the other direction: what the parser reads is derived by the statement grammar.
-/
namespace Pyv

theorem ginv_nil (ts : List Tok) : GInv ts [] ts := ⟨12, [], .nil, topOther rfl, rfl⟩
theorem ginv_empty {input ts : List Tok} (h : GInv input [] ts) : input = ts := by
  obtain ⟨m, us, hst, _, hi⟩ := h
  cases hst
  simpa using hi.symm
theorem ginv_ex {input : List Tok} {e : Ex} {ts : List Tok} (h : GInv input [.ex e] ts) :
    ∃ us, Derives (.expr 0 e) us ∧ input = us ++ ts := by
  obtain ⟨m, us, hst, _, hi⟩ := h
  cases hst with
  | push hst h1 _ =>
  cases hst
  exact ⟨_, Derives.full h1, by simpa using hi.symm⟩

/-- A part select that begins with a name is written as such. -/
theorem psel_left {ph : Phrase} {ts : List Tok} (h : Derives ph ts) : ∀ {k : Nat} {v m l : Ex}, ph = .expr k (.psel v m l) →
    (∃ n r, ts = .id n :: r) → SDerives (.left (.psel v m l)) ts := by
  induction h with
  | part h1 h2 h3 =>
    intro k v m l hp _
    simp only [Phrase.expr.injEq, Ex.psel.injEq] at hp
    obtain ⟨_, rfl, rfl, rfl⟩ := hp
    exact .part h1 h2 h3
  | partUp h1 h2 h3 =>
    intro k v m l hp _
    simp only [Phrase.expr.injEq, Ex.psel.injEq] at hp
    obtain ⟨_, rfl, rfl, rfl⟩ := hp
    exact .partUp h1 h2 h3
  | partDown h1 h2 h3 =>
    intro k v m l hp _
    simp only [Phrase.expr.injEq, Ex.psel.injEq] at hp
    obtain ⟨_, rfl, rfl, rfl⟩ := hp
    exact .partDown h1 h2 h3
  | operand h ih =>
    intro k v m l hp _
    simp only [Phrase.expr.injEq] at hp
    obtain ⟨_, rfl⟩ := hp
    cases h
  | paren => rintro k v m l _ ⟨n, r, h⟩; simp at h
  | un => rintro k v m l _ ⟨n, r, h⟩; simp at h
  | stronger _ _ ih =>
    intro k v m l hp hid
    simp only [Phrase.expr.injEq] at hp
    obtain ⟨_, rfl⟩ := hp
    exact ih rfl hid
  | _ => intro k v m l hp; simp at hp

theorem ginv_left {input : List Tok} {i : List Sym} {l : Ex} {ts : List Tok} (h : GInv input i ts)
    (hid : i = [] ∨ ∃ n, input.head? = some (.id n)) (hl : leftOf i = some l) :
    ∃ us, SDerives (.left l) us ∧ input = us ++ ts := by
  obtain ⟨m, us, hst, _, hi⟩ := h
  unfold leftOf at hl
  split at hl
  · simp only [Option.some.injEq] at hl; subst hl
    cases hst with
    | push hst h1 _ =>
    cases hst
    exact ⟨_, .base (base_derives rfl h1), by simpa using hi.symm⟩
  · simp only [Option.some.injEq] at hl; subst hl
    cases hst with
    | push hst h1 _ =>
    cases hst
    exact ⟨_, .base (base_derives rfl h1), by simpa using hi.symm⟩
  · simp only [Option.some.injEq] at hl; subst hl
    cases hst with
    | @push _ _ _ _ _ us hst h1 _ =>
    cases hst
    simp only [List.nil_append] at hi
    refine ⟨us, psel_left h1 rfl ?_, hi.symm⟩
    rcases hid with h | ⟨n, hn⟩
    · simp at h
    · obtain ⟨t, r, e, _⟩ := derives_first h1
      subst hi
      rw [e] at hn ⊢
      simp only [List.cons_append, List.head?_cons, Option.some.injEq] at hn
      exact ⟨n, r, by rw [hn]⟩
  · simp at hl

/-- The flag of the grammar is a property of the statement. -/
theorem sderives_open {b : Bool} {s : Stmt} {ts : List Tok} (h : SDerives (.stmt b s) ts) : b = s.openIf := by
  generalize hp : SPhrase.stmt b s = ph at h
  induction h generalizing b s with
  | ifElse _ _ hf _ ih =>
    simp only [SPhrase.stmt.injEq] at hp
    obtain ⟨rfl, rfl⟩ := hp
    have := ih rfl
    have hns := sderives_notSkip hf
    simp only [Stmt.openIf, ← this]
    cases ‹Stmt› <;> first | exact absurd rfl hns | simp [Stmt.isNull]
  | «for» _ _ _ _ _ _ _ _ ih =>
    simp only [SPhrase.stmt.injEq] at hp
    obtain ⟨hb, hs⟩ := hp
    rw [hb, hs]
    have := ih rfl
    simpa [Stmt.openIf] using this
  | «while» _ _ ih =>
    simp only [SPhrase.stmt.injEq] at hp
    obtain ⟨hb, hs⟩ := hp
    rw [hb, hs]
    have := ih rfl
    simpa [Stmt.openIf] using this
  | _ => simp only [SPhrase.stmt.injEq, reduceCtorEq] at hp <;> (obtain ⟨rfl, rfl⟩ := hp; rfl)

/-- The words of a block's beginning. -/
def blkWords : Option Str → List Tok
  | none => [.kw "begin".toList]
  | some n => [.kw "begin".toList, .p .colon, .id n]

/-- The tokens that a symbol of the statement stack stands for. -/
def FrameFor : OSym → List Tok → Prop
  | .head w, ts => (w ≠ "unique".toList ∧ ts = [.kw w, .p .lparen]) ∨
      (w = "unique".toList ∧ ts = [.kw w, .kw "case".toList, .p .lparen])
  | .ifh c, ts => ∃ us, Derives (.expr 0 c) us ∧ ts = .kw "if".toList :: .p .lparen :: (us ++ [.p .rparen])
  | .els c t, ts => t.loopsInside = true ∧ ∃ us ws, Derives (.expr 0 c) us ∧ SDerives (.stmt false t) ws ∧
      ts = .kw "if".toList :: .p .lparen :: (us ++ .p .rparen :: (ws ++ [.kw "else".toList]))
  | .whileh c, ts => ∃ us, Derives (.expr 0 c) us ∧ ts = .kw "while".toList :: .p .lparen :: (us ++ [.p .rparen])
  | .forP, ts => ts = [.kw "for".toList, .p .lparen]
  | .forC l r, ts => ∃ a b, SDerives (.left l) a ∧ Derives (.expr 0 r) b ∧
      ts = .kw "for".toList :: .p .lparen :: (a ++ .p .equals :: (b ++ [.p .semicolon]))
  | .forQ l r c, ts => ∃ a b d, SDerives (.left l) a ∧ Derives (.expr 0 r) b ∧ Derives (.expr 0 c) d ∧
      ts = .kw "for".toList :: .p .lparen :: (a ++ .p .equals :: (b ++ .p .semicolon :: (d ++ [.p .semicolon])))
  | .forB l r c ql qr, ts => ∃ a b d a' b', SDerives (.left l) a ∧ Derives (.expr 0 r) b ∧ Derives (.expr 0 c) d ∧
      SDerives (.left ql) a' ∧ Derives (.expr 0 qr) b' ∧
      ts = .kw "for".toList :: .p .lparen :: (a ++ .p .equals :: (b ++ .p .semicolon :: (d ++ .p .semicolon ::
        (a' ++ .p .equals :: (b' ++ [.p .rparen])))))
  | .blk n ss, ts => Stmt.loopsInsides ss = true ∧ ∃ us, SDerives (.stmts ss) us ∧ ts = blkWords n ++ us
  | .caseh k c cs ss, ts => Stmt.loopsInsides ss = true ∧ ∃ us ws, Derives (.expr 0 c) us ∧ SDerives (.items cs ss) ws ∧
      ts = caseWords k ++ .p .lparen :: (us ++ .p .rparen :: ws)
  | .conds es, ts => (es = [] ∧ ts = []) ∨ ∃ us, SDerives (.alts es) us ∧ ts = us ++ [.p .comma]
  | .item (some es), ts => ∃ us, SDerives (.alts es) us ∧ ts = us ++ [.p .colon]
  | .item none, ts => ts = [.kw "default".toList, .p .colon]
  | .lhs, ts => ts = []
  | .lcat es, ts => (es = [] ∧ ts = [.p .lbrace]) ∨ ∃ us, SDerives (.lefts es) us ∧ ts = .p .lbrace :: (us ++ [.p .comma])
  | .lv l, ts => SDerives (.left l) ts
  | .asg nb l, ts => ∃ us, SDerives (.left l) us ∧ ts = us ++ [.p (asgPun nb)]
  | .st s, ts => s.loopsInside = true ∧ ∃ b, SDerives (.stmt b s) ts

/-- The statement stack with the tokens it stands for. -/
inductive OStk : List OSym → List Tok → Prop
  | nil : OStk [] []
  | push {x o us ts} : OStk o us → FrameFor x ts → OStk (x :: o) (us ++ ts)

/-- The expression stack and the remaining tokens, above the statement stack: `rest` is what the statement stack leaves. -/
def Inner : List OSym → List Sym → List Tok → List Tok → Prop
  | .lhs :: _, i, ts, rest => GInv rest i ts ∧ (i = [] ∨ ∃ n, rest.head? = some (.id n))
  | .asg _ _ :: _, i, ts, rest => GInv rest i ts
  | .head _ :: _, i, ts, rest => GInv rest i ts
  | .forC _ _ :: _, i, ts, rest => GInv rest i ts
  | .conds _ :: _, i, ts, rest => GInv rest i ts
  | .st s :: _, i, ts, rest => i = [] ∧ rest = ts ∧ (s.openIf = true → ts.head? ≠ some (kwt "else"))
  | _, i, ts, rest => i = [] ∧ rest = ts

/-- The invariant of the statement parser: the two stacks and the remaining tokens are the input. -/
def SInv (input : List Tok) (o : List OSym) (i : List Sym) (ts : List Tok) : Prop :=
  ∃ us rest, OStk o us ∧ Inner o i ts rest ∧ us ++ rest = input

/-- A new symbol; nothing is read of what comes above it. -/
theorem sinv_push {input : List Tok} {o : List OSym} {us ws ts : List Tok} {x : OSym} (h : OStk o us) (hx : FrameFor x ws)
    (hs : ∀ s, x = .st s → s.openIf = true → ts.head? ≠ some (kwt "else")) (hi : us ++ (ws ++ ts) = input) :
    SInv input (x :: o) [] ts := by
  refine ⟨us ++ ws, ts, .push h hx, ?_, by simpa using hi⟩
  cases x <;> first
    | exact ⟨ginv_nil ts, .inl rfl⟩
    | exact ginv_nil ts
    | exact ⟨rfl, rfl⟩
    | exact ⟨rfl, rfl, hs _ rfl⟩

theorem kw_iff {w : Str} {v : String} : w = v.toList ↔ Tok.kw w = kwt v := by simp [kwt]

theorem startStmt_sinv {input : List Tok} {o : List OSym} {us ts : List Tok} {r} (h : OStk o us) (hi : us ++ ts = input)
    (hs : startStmt o ts = some r) : SInv input r.1 r.2.1 r.2.2 := by
  unfold startStmt at hs
  split at hs
  · next w ts' =>
    split at hs
    · next hw =>
      subst hw
      split at hs
      · simp only [Option.some.injEq] at hs; subst hs
        exact sinv_push (ws := [.kw "begin".toList, .p .colon, .id _]) h ⟨rfl, [], .noStmt, rfl⟩ (by simp) (by simpa using hi)
      · simp only [Option.some.injEq] at hs; subst hs
        exact sinv_push (ws := [.kw "begin".toList]) h ⟨rfl, [], .noStmt, rfl⟩ (by simp) (by simpa using hi)
    · split at hs
      · next hw =>
        subst hw
        split at hs
        · simp only [Option.some.injEq] at hs; subst hs
          exact sinv_push (ws := []) (.push (ts := [.kw "for".toList, .p .lparen]) h rfl) rfl (by simp) (by simpa using hi)
        · simp at hs
      · split at hs
        · next hw =>
          subst hw
          split at hs
          · split at hs
            · next hw2 =>
              simp only [Option.some.injEq] at hs; subst hs; subst hw2
              exact sinv_push (ws := [.kw "unique".toList, .kw "case".toList, .p .lparen]) h (.inr ⟨rfl, rfl⟩) (by simp) (by simpa using hi)
            · simp at hs
          · simp at hs
        · next hnu =>
          split at hs
          · split at hs
            · simp only [Option.some.injEq] at hs; subst hs
              exact sinv_push (ws := [.kw w, .p .lparen]) h (.inl ⟨hnu, rfl⟩) (by simp) (by simpa using hi)
            · simp at hs
          · simp at hs
  · simp only [Option.some.injEq] at hs; subst hs
    exact sinv_push (ws := []) h rfl (by simp) (by simpa using hi)
  · simp only [Option.some.injEq] at hs; subst hs
    exact sinv_push (ws := []) h rfl (by simp) (by simpa using hi)
  · simp at hs

theorem hasEnd_loop {s : Stmt} (h : s.hasEnd = true) : s.isLoop = false := by
  cases s <;> first | rfl | (simp [Stmt.hasEnd] at h)

theorem reduceStmt_sinv {input : List Tok} {s : Stmt} {o : List OSym} {us ts : List Tok} {r} (h : OStk (.st s :: o) us)
    (hi : us ++ ts = input) (hop : s.openIf = true → ts.head? ≠ some (kwt "else"))
    (hs : reduceStmt s o ts = some r) : SInv input r.1 r.2.1 r.2.2 := by
  cases h with
  | @push _ _ us ws h hst =>
  obtain ⟨hlo, b, hd⟩ := hst
  have hb := sderives_open hd
  have hif : ∀ {c : Ex} {o' : List OSym}, o = .ifh c :: o' → s.hasEnd = true → ts.head? ≠ some (kwt "else") →
      SInv input (.st (.ifs c s .skip) :: o') [] ts := by
    rintro c o' rfl he hne
    cases h with
    | push h hx =>
    obtain ⟨xs, hc, rfl⟩ := hx
    refine sinv_push h ⟨?_, true, .ifOnly hc hd⟩ (fun _ h _ => hne) (by simpa using hi)
    simp [Stmt.loopsInside, hlo, hasEnd_loop he]
  unfold reduceStmt at hs
  split at hs
  · next c o' =>
    split at hs
    · next w ts' =>
      split at hs
      · next hw =>
        subst hw
        simp only [Option.some.injEq] at hs; subst hs
        cases h with
        | push h hx =>
        obtain ⟨xs, hc, rfl⟩ := hx
        have hbf : b = false := by
          cases hq : b with
          | false => rfl
          | true => exact absurd rfl (hop (by rw [← hb, hq]))
        subst hbf
        exact sinv_push h ⟨hlo, xs, ws, hc, hd, rfl⟩ (by simp) (by simpa using hi)
      · next hw =>
        split at hs
        · next he =>
          simp only [Option.some.injEq] at hs; subst hs
          exact hif rfl he (by simpa [kwt] using hw)
        · simp at hs
    · next hne =>
      split at hs
      · next he =>
        simp only [Option.some.injEq] at hs; subst hs
        refine hif rfl he ?_
        cases ts with
        | nil => simp
        | cons t ts =>
          simp only [List.head?_cons, ne_eq, Option.some.injEq]
          rintro rfl
          exact hne _ _ rfl
      · simp at hs
  · next c t o' =>
    split at hs
    · next he =>
      simp only [Option.some.injEq] at hs; subst hs
      cases h with
      | push h hx =>
      obtain ⟨hlt, xs, ys, hc, ht, rfl⟩ := hx
      refine sinv_push h ⟨?_, b, .ifElse hc ht hd⟩ ?_ (by simpa using hi)
      · rw [loopsInside_if (sderives_notSkip hd)]
        simp [hlt, hlo, hasEnd_loop he]
      · rintro s' hs' ho
        simp only [OSym.st.injEq] at hs'
        subst hs'
        refine hop ?_
        have hns := sderives_notSkip hd
        simp only [Stmt.openIf] at ho
        cases s <;> first | exact absurd rfl hns | simpa [Stmt.isNull] using ho
    · simp at hs
  · next c o' =>
    simp only [Option.some.injEq] at hs; subst hs
    cases h with
    | push h hx =>
    obtain ⟨xs, hc, rfl⟩ := hx
    refine sinv_push h ⟨hlo, b, .while hc hd⟩ ?_ (by simpa using hi)
    rintro s' hs' ho
    simp only [OSym.st.injEq] at hs'; subst hs'
    exact hop ho
  · next o' =>
    split at hs
    · next l r =>
      simp only [Option.some.injEq] at hs; subst hs
      cases h with
      | push h hx =>
      cases hx
      cases hd with
      | blocking hl hr => exact sinv_push h ⟨_, _, hl, hr, rfl⟩ (by simp) (by simpa using hi)
    · simp at hs
  · next l r c ql qr o' =>
    simp only [Option.some.injEq] at hs; subst hs
    cases h with
    | push h hx =>
    obtain ⟨a, b1, d, a', b', h1, h2, h3, h4, h5, rfl⟩ := hx
    refine sinv_push h ⟨hlo, b, .for h1 h2 h3 h4 h5 hd⟩ ?_ (by simpa using hi)
    rintro s' hs' ho
    simp only [OSym.st.injEq] at hs'; subst hs'
    exact hop ho
  · next n ss o' =>
    simp only [Option.some.injEq] at hs; subst hs
    cases h with
    | push h hx =>
    obtain ⟨hls, xs, hss, rfl⟩ := hx
    exact sinv_push h ⟨by rw [loopsInsides_append]; simp [Stmt.loopsInsides, hls, hlo], _, .stmts hss hd, rfl⟩ (by simp) (by simpa using hi)
  · next cs k e conds bodies o' =>
    simp only [Option.some.injEq] at hs; subst hs
    cases h with
    | push h hx =>
    cases h with
    | push h hy =>
    obtain ⟨hls, xs, ys, hc, hit, rfl⟩ := hy
    have hl2 : Stmt.loopsInsides (bodies ++ [s]) = true := by rw [loopsInsides_append]; simp [Stmt.loopsInsides, hls, hlo]
    cases cs with
    | none =>
      cases hx
      exact sinv_push h ⟨hl2, _, _, hc, .default hit hd, rfl⟩ (by simp) (by simpa using hi)
    | some es =>
      obtain ⟨zs, hes, rfl⟩ := hx
      exact sinv_push h ⟨hl2, _, _, hc, .item hit hes hd, rfl⟩ (by simp) (by simpa using hi)
  · simp at hs

theorem innerStep_ginv {rest : List Tok} {o : List OSym} {i : List Sym} {ts : List Tok} {r} (h : GInv rest i ts)
    (hs : innerStep o i ts = some r) : r.1 = o ∧ GInv rest r.2.1 r.2.2 := by
  simp only [innerStep, Option.map_eq_some_iff] at hs
  obtain ⟨x, hx, rfl⟩ := hs
  exact ⟨rfl, step_ginv h hx⟩

theorem headOf_sinv {input : List Tok} {o : List OSym} {w : Str} {us ws xs ts : List Tok} {e : Ex} {h : OSym} (ho : OStk o us)
    (hx : FrameFor (.head w) ws) (he : Derives (.expr 0 e) xs) (hh : headOf w e = some h)
    (hi : us ++ ws ++ (xs ++ .p .rparen :: ts) = input) : SInv input (h :: o) [] ts := by
  unfold headOf at hh
  split at hh
  · next hw =>
    subst hw
    simp only [Option.some.injEq] at hh; subst hh
    rcases hx with ⟨_, rfl⟩ | ⟨h, _⟩
    · exact sinv_push ho ⟨xs, he, rfl⟩ (by simp) (by simpa using hi)
    · exact absurd h (by decide)
  · split at hh
    · next hw =>
      subst hw
      simp only [Option.some.injEq] at hh; subst hh
      rcases hx with ⟨_, rfl⟩ | ⟨h, _⟩
      · exact sinv_push ho ⟨xs, he, rfl⟩ (by simp) (by simpa using hi)
      · exact absurd h (by decide)
    · split at hh
      · next hw =>
        simp only [Option.some.injEq] at hh; subst hh
        rcases hx with ⟨h, _⟩ | ⟨_, rfl⟩
        · exact absurd hw h
        · subst hw
          exact sinv_push ho ⟨rfl, xs, [], he, .noItem, rfl⟩ (by simp) (by simpa [caseWords] using hi)
      · next hnu =>
        simp only [Option.map_eq_some_iff] at hh
        obtain ⟨k, hk, rfl⟩ := hh
        rcases hx with ⟨_, rfl⟩ | ⟨h, _⟩
        · refine sinv_push ho ⟨rfl, xs, [], he, .noItem, rfl⟩ (by simp) ?_
          have : caseWords k = [.kw w] := by
            unfold caseWord at hk
            split at hk
            · next h => simp only [Option.some.injEq] at hk; subst hk; rw [h]; rfl
            · split at hk
              · next h => simp only [Option.some.injEq] at hk; subst hk; rw [h]; rfl
              · split at hk
                · next h => simp only [Option.some.injEq] at hk; subst hk; rw [h]; rfl
                · simp at hk
          simpa [this] using hi
        · exact absurd h hnu

theorem conds_alts {cs : List Ex} {e : Ex} {us xs : List Tok} (h : FrameFor (.conds cs) us) (he : Derives (.expr 0 e) xs) :
    SDerives (.alts (cs ++ [e])) (us ++ xs) := by
  rcases h with ⟨rfl, rfl⟩ | ⟨vs, hv, rfl⟩
  · exact .alt he
  · simpa using SDerives.alts hv he

theorem lcat_lefts {es : List Ex} {l : Ex} {us xs : List Tok} (h : FrameFor (.lcat es) us) (hl : SDerives (.left l) xs) :
    ∃ vs, SDerives (.lefts (es ++ [l])) vs ∧ us ++ xs = .p .lbrace :: vs := by
  rcases h with ⟨rfl, rfl⟩ | ⟨vs, hv, rfl⟩
  · exact ⟨_, .left hl, rfl⟩
  · exact ⟨_, .lefts hv hl, by simp⟩

theorem sstep_sinv {input : List Tok} {o : List OSym} {i : List Sym} {ts : List Tok} {r} (h : SInv input o i ts)
    (hs : sstep o i ts = some r) : SInv input r.1 r.2.1 r.2.2 := by
  obtain ⟨us, rest, ho, hin, hi⟩ := h
  unfold sstep at hs
  split at hs
  · obtain ⟨rfl, rfl, hop⟩ := hin
    exact reduceStmt_sinv ho hi hop hs
  · next o' =>
    obtain ⟨hg, hid⟩ := hin
    have hinner : ∀ {r}, innerStep (.lhs :: o') i ts = some r → (∃ n, rest.head? = some (.id n)) → SInv input r.1 r.2.1 r.2.2 := by
      intro r hr hn
      obtain ⟨e, hg'⟩ := innerStep_ginv hg hr
      rw [e]
      exact ⟨us, rest, ho, ⟨hg', .inr hn⟩, hi⟩
    cases ho with
    | push ho hx =>
    cases hx
    unfold stepLhs at hs
    split at hs
    · have := ginv_empty hg
      subst this
      split at hs
      · simp only [Option.some.injEq] at hs; subst hs
        exact sinv_push (ws := []) (.push (ts := [.p .lbrace]) ho (.inl ⟨rfl, rfl⟩)) rfl (by simp) (by simpa using hi)
      · exact hinner hs ⟨_, rfl⟩
      · simp at hs
    · next hne =>
      have hn : ∃ n, rest.head? = some (.id n) := by
        rcases hid with rfl | h
        · exact absurd rfl hne
        · exact h
      split at hs
      · next l t ts' hl =>
        split at hs
        · simp only [Option.some.injEq] at hs; subst hs
          obtain ⟨ws, hw, rfl⟩ := ginv_left hg hid hl
          exact sinv_push ho hw (by simp) (by simpa using hi)
        · exact hinner hs hn
      · exact hinner hs hn
  · next l o' =>
    obtain ⟨rfl, rfl⟩ := hin
    cases ho with
    | push ho hx =>
    unfold stepLv at hs
    split at hs
    · next es o'' =>
      cases ho with
      | @push _ _ us1 us2 ho hy =>
      obtain ⟨vs, hvs, hv⟩ := lcat_lefts hy hx
      rw [List.append_assoc us1, hv] at hi
      split at hs
      · simp only [Option.some.injEq] at hs; subst hs
        exact sinv_push (ws := []) (.push ho (.inr ⟨vs, hvs, rfl⟩)) rfl (by simp) (by simpa using hi)
      · simp only [Option.some.injEq] at hs; subst hs
        exact sinv_push ho (.concat hvs) (by simp) (by simpa using hi)
      · simp at hs
    · split at hs
      · simp only [Option.some.injEq] at hs; subst hs
        exact sinv_push ho ⟨_, hx, rfl⟩ (by simp) (by simpa [asgPun] using hi)
      · simp only [Option.some.injEq] at hs; subst hs
        exact sinv_push ho ⟨_, hx, rfl⟩ (by simp) (by simpa [asgPun] using hi)
      · simp at hs
  · simp at hs
  · next nb l o' =>
    have hin' : GInv rest i ts := hin
    cases ho with
    | @push _ _ us1 us2 ho hx =>
    have ho' := OStk.push ho hx
    split at hs
    · simp only [Option.some.injEq] at hs; subst hs
      obtain ⟨ws, hw, rfl⟩ := hx
      obtain ⟨xs, hx, rfl⟩ := ginv_ex hin'
      cases nb with
      | false => exact sinv_push ho ⟨rfl, _, .blocking hw hx⟩ (by simp [Stmt.openIf]) (by simpa [asgPun] using hi)
      | true => exact sinv_push ho ⟨rfl, _, .nonblocking hw hx⟩ (by simp [Stmt.openIf]) (by simpa [asgPun] using hi)
    · split at hs
      · simp only [Option.some.injEq] at hs; subst hs
        obtain ⟨ws, hw, rfl⟩ := hx
        obtain ⟨xs, hx, rfl⟩ := ginv_ex hin'
        cases ho with
        | push ho hy =>
        obtain ⟨a, b, d, h1, h2, h3, rfl⟩ := hy
        exact sinv_push ho ⟨_, _, _, _, _, h1, h2, h3, hw, hx, rfl⟩ (by simp) (by simpa [asgPun] using hi)
      · simp at hs
    · obtain ⟨e, hg⟩ := innerStep_ginv hin' hs
      rw [e]
      exact ⟨_, rest, ho', hg, hi⟩
  · next w o' =>
    have hin' : GInv rest i ts := hin
    cases ho with
    | @push _ _ us1 us2 ho hx =>
    have ho' := OStk.push ho hx
    split at hs
    · obtain ⟨xs, hxs, rfl⟩ := ginv_ex hin'
      simp only [Option.map_eq_some_iff] at hs
      obtain ⟨hd, hh, rfl⟩ := hs
      exact headOf_sinv ho hx hxs hh hi
    · obtain ⟨e, hg⟩ := innerStep_ginv hin' hs
      rw [e]
      exact ⟨_, rest, ho', hg, hi⟩
  · next l r' o' =>
    have hin' : GInv rest i ts := hin
    cases ho with
    | @push _ _ us1 us2 ho hx =>
    have ho' := OStk.push ho hx
    split at hs
    · simp only [Option.some.injEq] at hs; subst hs
      obtain ⟨xs, hxs, rfl⟩ := ginv_ex hin'
      obtain ⟨a, b, h1, h2, rfl⟩ := hx
      exact sinv_push (ws := []) (.push ho ⟨a, b, xs, h1, h2, hxs, rfl⟩) rfl (by simp) (by simpa using hi)
    · obtain ⟨e, hg⟩ := innerStep_ginv hin' hs
      rw [e]
      exact ⟨_, rest, ho', hg, hi⟩
  · next cs o' =>
    have hin' : GInv rest i ts := hin
    cases ho with
    | @push _ _ us1 us2 ho hx =>
    have ho' := OStk.push ho hx
    split at hs
    · simp only [Option.some.injEq] at hs; subst hs
      obtain ⟨xs, hxs, rfl⟩ := ginv_ex hin'
      exact sinv_push ho (.inr ⟨_, conds_alts hx hxs, rfl⟩) (by simp) (by simpa using hi)
    · simp only [Option.some.injEq] at hs; subst hs
      obtain ⟨xs, hxs, rfl⟩ := ginv_ex hin'
      exact sinv_push ho ⟨_, conds_alts hx hxs, rfl⟩ (by simp) (by simpa using hi)
    · obtain ⟨e, hg⟩ := innerStep_ginv hin' hs
      rw [e]
      exact ⟨_, rest, ho', hg, hi⟩
  · next k e conds bodies o' =>
    obtain ⟨rfl, rfl⟩ := hin
    split at hs
    · split at hs
      · next hw =>
        subst hw
        split at hs
        · simp only [Option.some.injEq] at hs; subst hs
          exact sinv_push (ws := [.kw "default".toList, .p .colon]) ho rfl (by simp) (by simpa using hi)
        · simp at hs
      · split at hs
        · next hw =>
          obtain ⟨rfl, hne⟩ := hw
          simp only [Option.some.injEq] at hs; subst hs
          cases ho with
          | push ho hx =>
          obtain ⟨hl, us, ws, hc, hit, rfl⟩ := hx
          exact sinv_push ho ⟨hl, _, .case hc hit hne⟩ (by simp [Stmt.openIf]) (by simpa using hi)
        · simp at hs
    · simp at hs
    · simp only [Option.some.injEq] at hs; subst hs
      exact sinv_push (ws := []) ho (.inl ⟨rfl, rfl⟩) (by simp) (by simpa using hi)
  · next n ss o' =>
    obtain ⟨rfl, rfl⟩ := hin
    split at hs
    · split at hs
      · next hw =>
        subst hw
        simp only [Option.some.injEq] at hs; subst hs
        cases ho with
        | push ho hx =>
        obtain ⟨hl, us, hss, rfl⟩ := hx
        cases n with
        | none => exact sinv_push ho ⟨hl, _, .block hss⟩ (by simp [Stmt.openIf]) (by simpa [blkWords] using hi)
        | some n => exact sinv_push ho ⟨hl, _, .named hss⟩ (by simp [Stmt.openIf]) (by simpa [blkWords] using hi)
      · exact startStmt_sinv ho hi hs
    · exact startStmt_sinv ho hi hs
  · have : rest = ts := by
      cases o with
      | nil => exact hin.2
      | cons x o =>
        cases x <;> first | exact hin.2 | (exfalso; simp_all)
    subst this
    exact startStmt_sinv ho hi hs

theorem sparseN_sinv {n : Nat} {input : List Tok} {o : List OSym} {i : List Sym} {ts : List Tok} {s : Stmt}
    (h : SInv input o i ts) (hp : sparseN n o i ts = some s) :
    s.loopsInside = true ∧ ∃ b, SDerives (.stmt b s) input := by
  induction n generalizing o i ts with
  | zero => simp [sparseN] at hp
  | succ n ih =>
    unfold sparseN at hp
    split at hp
    · simp only [Option.some.injEq] at hp; subst hp
      obtain ⟨us, rest, ho, hin, hi⟩ := h
      obtain ⟨_, rfl, _⟩ := hin
      cases ho with
      | push ho hx =>
      cases ho
      simp only [List.nil_append, List.append_nil] at hi
      subst hi
      exact hx
    · split at hp
      · simp at hp
      · next hs => exact ih (sstep_sinv h hs) hp

/-- A stuck parser reads nothing. -/
theorem SStuck.refused {o : List OSym} {i : List Sym} {t : List Tok} (h : SStuck o i t) (n : Nat) : sparseN n o i t = none := by
  obtain ⟨x, y, o1, i1, t1, hs, hn⟩ := h
  induction n generalizing o i t with
  | zero => rfl
  | succ n ih =>
    cases hs with
    | refl => rw [sparseN_next _ (by simp), hn]; rfl
    | head h1 hs =>
      rw [sparseN_next, h1]
      · exact ih hs
      · rintro s ⟨rfl, rfl, rfl⟩
        simp [sstep, reduceStmt] at h1

/-- C83.  The parser reads a list of tokens as a statement exactly when the grammar writes that statement with these
tokens and no loop is the last branch of an if. -/
theorem C83_reads_the_grammar (ts : List Tok) (s : Stmt) :
    (∃ n, sparseN n [] [] ts = some s) ↔ (∃ b, SDerives (.stmt b s) ts) ∧ s.loopsInside = true := by
  constructor
  · rintro ⟨n, hn⟩
    have := sparseN_sinv (input := ts) ⟨[], ts, .nil, ⟨rfl, rfl⟩, rfl⟩ hn
    exact ⟨this.2, this.1⟩
  · rintro ⟨⟨b, hd⟩, hl⟩
    have := sderives_parsed hd [] [] newTop_nil (by simp)
    rw [List.append_nil, hl] at this
    exact SSt.parse this

/-- C83 for texts. -/
theorem C83_reads_texts (text : Str) (s : Stmt) :
    StmtParsesTo text s ↔ ∃ ts, lex text = some ts ∧ (∃ b, SDerives (.stmt b s) ts) ∧ s.loopsInside = true := by
  constructor
  · rintro ⟨ts, hl, h⟩; exact ⟨ts, hl, (C83_reads_the_grammar ts s).1 h⟩
  · rintro ⟨ts, hl, h⟩; exact ⟨ts, hl, (C83_reads_the_grammar ts s).2 h⟩

/-- C83, the defect: a text of the grammar in which a loop is the last branch of an if is refused, whatever else it
contains (the parser raises AttributeError). -/
theorem C83_fails_loop (b : Bool) (s : Stmt) (ts : List Tok) (h : SDerives (.stmt b s) ts) (hl : s.loopsInside = false) (n : Nat) :
    sparseN n [] [] ts = none := by
  have := sderives_parsed h [] [] newTop_nil (by simp)
  rw [List.append_nil, hl] at this
  exact SStuck.refused this n

/-- C83.  The grammar is unambiguous on the statements the parser reads: an else belongs to the nearest if that has none. -/
theorem C83_one_statement (ts : List Tok) (b b' : Bool) (s s' : Stmt) (h : SDerives (.stmt b s) ts) (h' : SDerives (.stmt b' s') ts)
    (hl : s.loopsInside = true) : s' = s := by
  obtain ⟨n, hn⟩ := (C83_reads_the_grammar ts s).2 ⟨⟨b, h⟩, hl⟩
  cases hl' : s'.loopsInside with
  | false =>
    have := C83_fails_loop b' s' ts h' hl' n
    rw [hn] at this
    simp at this
  | true =>
    obtain ⟨n', hn'⟩ := (C83_reads_the_grammar ts s').2 ⟨⟨b', h'⟩, hl'⟩
    have h1 := sparseN_mono hn n'
    have h2 := sparseN_mono hn' n
    rw [Nat.add_comm, h1] at h2
    simpa using h2.symm

/-- C83.  An else after an if with an inner if without else belongs to the inner one. -/
theorem C83_else_of_the_inner_if (c d : Ex) (s f : Stmt) (ts us ws xs : List Tok) (b : Bool) (hc : Derives (.expr 0 c) ts)
    (hd : Derives (.expr 0 d) us) (hs : SDerives (.stmt false s) ws) (hf : SDerives (.stmt b f) xs)
    (hls : s.loopsInside = true) (hlf : f.loopsInside = true) (hnl : f.isLoop = false) (r : Stmt) :
    (∃ n, sparseN n [] [] (.kw "if".toList :: .p .lparen :: (ts ++ .p .rparen :: (.kw "if".toList :: .p .lparen :: (us ++
      .p .rparen :: (ws ++ .kw "else".toList :: xs))))) = some r) ↔ r = .ifs c (.ifs d s f) .skip := by
  have hin := SDerives.ifElse hd hs hf
  have hout := SDerives.ifOnly hc hin
  have hns := sderives_notSkip hf
  have hl : (Stmt.ifs c (.ifs d s f) .skip).loopsInside = true := by
    simp only [Stmt.loopsInside, loopsInside_if hns, hls, hlf, hnl]
    simp [Stmt.isLoop]
  constructor
  · intro h
    obtain ⟨⟨b', h'⟩, _⟩ := (C83_reads_the_grammar _ _).1 h
    exact C83_one_statement _ _ _ _ _ hout h' hl
  · rintro rfl
    exact (C83_reads_the_grammar _ _).2 ⟨⟨_, hout⟩, hl⟩

/-- The tokens of `if (a) if (b) x = c; else {y, z[d]} <= e;`. -/
def c83ts : List Tok :=
  [.kw "if".toList, .p .lparen, .id "a".toList, .p .rparen, .kw "if".toList, .p .lparen, .id "b".toList, .p .rparen,
    .id "x".toList, .p .equals, .id "c".toList, .p .semicolon, .kw "else".toList, .p .lbrace, .id "y".toList, .p .comma,
    .id "z".toList, .p .lbracket, .id "d".toList, .p .rbracket, .p .rbrace, .p .le, .id "e".toList, .p .semicolon]

example : lex "if (a) if (b) x = c; else {y, z[d]} <= e;".toList = some c83ts := by decide +kernel

theorem c83_name (n : Str) : Derives (.expr 0 (.ident [] n)) [.id n] := (c81_name n).full
theorem c83_left (n : Str) : SDerives (.left (.ident [] n)) [.id n] := .base (.name [] n)

example (r : Stmt) : (∃ n, sparseN n [] [] c83ts = some r) ↔
    r = .ifs (c65n 'a') (.ifs (c65n 'b') (.ba (c65n 'x') (c65n 'c')) (.nb (.concat [c65n 'y', .ptr (c65n 'z') (c65n 'd')]) (c65n 'e'))) .skip :=
  C83_else_of_the_inner_if _ _ _ _ _ _ _ _ false (c83_name ['a']) (c83_name ['b'])
    (.blocking (c83_left ['x']) (c83_name ['c']))
    (.nonblocking (.concat (.lefts (.left (c83_left ['y'])) (.base (.index (.name [] ['z']) (c83_name ['d'])))))
      (c83_name ['e'])) rfl rfl rfl r

/-- The text `if (a) while (b) x = c;` is Verilog and is refused. -/
example : SDerives (.stmt true (.ifs (c65n 'a') (.whiles (c65n 'b') (.ba (c65n 'x') (c65n 'c'))) .skip))
    [.kw "if".toList, .p .lparen, .id ['a'], .p .rparen, .kw "while".toList, .p .lparen, .id ['b'], .p .rparen, .id ['x'],
      .p .equals, .id ['c'], .p .semicolon] ∧
    (Stmt.ifs (c65n 'a') (.whiles (c65n 'b') (.ba (c65n 'x') (c65n 'c'))) .skip).loopsInside = false :=
  ⟨.ifOnly (c83_name ['a']) (.while (c83_name ['b']) (.blocking (c83_left ['x']) (c83_name ['c']))), rfl⟩

/-- C65, C83, the defect on generated text: the code of an if whose branch is a loop is not read back. -/
theorem C65_fails_loop : ¬ ∃ s, StmtParsesTo (Stmt.ifs (c65n 'a') (.whiles (c65n 'b') (.ba (c65n 'x') (c65n 'c'))) .skip).code s := by
  rintro ⟨s, ts, hl, n, hn⟩
  have : lex (Stmt.ifs (c65n 'a') (.whiles (c65n 'b') (.ba (c65n 'x') (c65n 'c'))) .skip).code =
      some [.kw "if".toList, .p .lparen, .id ['a'], .p .rparen, .kw "while".toList, .p .lparen, .id ['b'], .p .rparen, .id ['x'],
      .p .equals, .id ['c'], .p .semicolon] := by decide +kernel
  rw [this] at hl
  simp only [Option.some.injEq] at hl
  subst hl
  have h0 := C83_fails_loop _ _ _ (.ifOnly (c83_name ['a']) (.while (c83_name ['b']) (.blocking (c83_left ['x']) (c83_name ['c'])))) rfl n
  exact absurd (h0.symm.trans hn) (by simp)

end Pyv
